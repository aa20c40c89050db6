import Verif.Spec.CText

/-!
# Specification: files as the operating system keeps them

`open`, `read`, `write`, `close` and `exit` of Linux, as far as a single process that is not denied anything can observe them.
-/

namespace Shecc.Files
open Shecc.Text (Byte)

/-- An open file: which file, where the next byte goes or comes from. -/
structure OpenFile where
  path : List Byte
  pos : Nat
  deriving DecidableEq

structure Kernel where
  files : List Byte → Option (List Byte)
  /-- by file descriptor -/
  fds : Nat → Option OpenFile
  /-- the descriptor that `open` will return: not in use -/
  next : Nat
  exited : Option (BitVec 8) := none

def O_WRONLY : Nat := 1
def O_CREAT : Nat := 64
def O_TRUNC : Nat := 512

def has (flags f : Nat) : Bool := flags &&& f == f

/-- Bytes `b` put at `pos` into `l`; a gap is filled with zeros. -/
def overwrite (l : List Byte) (pos : Nat) (b : List Byte) : List Byte :=
  l.take pos ++ List.replicate (pos - l.length) 0 ++ b ++ l.drop (pos + b.length)

def setFile (k : Kernel) (p : List Byte) (c : List Byte) : Kernel := { k with files := fun q => if q = p then some c else k.files q }
def setFd (k : Kernel) (fd : Nat) (o : Option OpenFile) : Kernel := { k with fds := fun n => if n = fd then o else k.fds n }

/-- `open`: a missing file is made if `O_CREAT` is given, otherwise the result is `-ENOENT`. -/
def openFile (k : Kernel) (p : List Byte) (flags : Nat) : Kernel × BitVec 32 :=
  match k.files p with
  | none =>
    if has flags O_CREAT then ({ setFd (setFile k p []) k.next (some ⟨p, 0⟩) with next := k.next + 1 }, BitVec.ofNat 32 k.next)
    else (k, -2)
  | some c =>
    ({ setFd (if has flags O_TRUNC then setFile k p [] else setFile k p c) k.next (some ⟨p, 0⟩) with next := k.next + 1 }, BitVec.ofNat 32 k.next)

/-- `write`: `-EBADF` if not open. -/
def write (k : Kernel) (fd : Nat) (b : List Byte) : Kernel × BitVec 32 :=
  match k.fds fd with
  | none => (k, -9)
  | some o => (setFd (setFile k o.path (overwrite ((k.files o.path).getD []) o.pos b)) fd (some ⟨o.path, o.pos + b.length⟩), BitVec.ofNat 32 b.length)

/-- `read`: the bytes read, none at the end of the file. -/
def read (k : Kernel) (fd : Nat) (n : Nat) : Kernel × List Byte × BitVec 32 :=
  match k.fds fd with
  | none => (k, [], -9)
  | some o =>
    let b := (((k.files o.path).getD []).drop o.pos).take n
    (setFd k fd (some ⟨o.path, o.pos + b.length⟩), b, BitVec.ofNat 32 b.length)

def close (k : Kernel) (fd : Nat) : Kernel := setFd k fd none

/-- `exit`: the status is the low byte. -/
def exit (k : Kernel) (code : BitVec 32) : Kernel := { k with exited := some (code.setWidth 8) }

end Shecc.Files
