import Verif.Model.Ph2

/-!
# Model of src/elf.c and of `write_symbol` (src/parser.c:55-60)

A buffer is its memory and its fill index.  Buffers are unbounded (the fixed sizes `MAX_CODE`, ... are hypotheses where
they matter).
-/

namespace Shecc.Elf
open Shecc

abbrev Byte := BitVec 8

/-- A `char *` buffer with its index (src/globals.c:63-75). -/
structure Buf where
  mem : Nat → Byte
  idx : Nat

/-- The bytes written so far: what `elf_generate` outputs for the buffer. -/
def Buf.bytes (b : Buf) : List Byte := (List.range b.idx).map b.mem

/-- `buf[index++] = val` -/
def Buf.put (b : Buf) (v : Byte) : Buf := ⟨fun i => if i = b.idx then v else b.mem i, b.idx + 1⟩

/-- `e_extract_byte` (src/elf.c:37-40): `(v >> (b * 8)) & 0xFF`, stored into a `char`. -/
def extractByte (v : CInt) (b : Nat) : Byte := ((v.sshiftRight (b * 8)) &&& 0xFF#32).setWidth 8

/-- `elf_write_int` (src/elf.c:42-47) with the loop unrolled by its constant bound 4. -/
def writeInt (buf : Nat → Byte) (index : Nat) (val : CInt) : (Nat → Byte) × Nat :=
  let b := (Buf.mk buf index).put (extractByte val 0) |>.put (extractByte val 1) |>.put (extractByte val 2)
    |>.put (extractByte val 3)
  (b.mem, b.idx)

def Buf.putInt (b : Buf) (val : CInt) : Buf := ⟨(writeInt b.mem b.idx val).1, (writeInt b.mem b.idx val).2⟩

/-- `elf_write_section_str`, `elf_write_data_str` (src/elf.c:15-25). -/
def Buf.putStr (b : Buf) (s : List Byte) : Buf := s.foldl Buf.put b

/-- The buffers of the ELF writer; `machine` and `flags` are `ELF_MACHINE` and `ELF_FLAGS` of the configured target
(mk/arm.mk:18-19, mk/riscv.mk:14-15). -/
structure St where
  header : Buf
  code : Buf
  data : Buf
  symtab : Buf
  strtab : Buf
  sect : Buf
  symbols : Nat
  machine : Byte
  flags : CInt

/-- A call of `elf_write_*_byte`, `elf_write_*_int` or `elf_write_section_str`. -/
inductive Wr
  | byte (v : Byte)
  | int (v : CInt)
  | str (s : List Byte)

/-- src/elf.c:15-19, 27-35, 42-57. -/
def Buf.write (b : Buf) : Wr → Buf
  | .byte v => b.put v
  | .int v => b.putInt v
  | .str s => b.putStr s

def Buf.writes (b : Buf) (ws : List Wr) : Buf := ws.foldl Buf.write b

/-- An `int` variable holding an index. -/
def int (n : Nat) : CInt := BitVec.ofNat 32 n

def headerLen : Nat := 0x54
def elfStart : Nat := 0x10000
/-- `elf_code_start` (src/globals.c:900) -/
def codeStart : Nat := elfStart + headerLen

/-- The writes of `elf_generate_header` (src/elf.c:69-113), in order.  The values read do not change during the call. -/
def headerWrites (s : St) : List Wr :=
  [.int 0x464c457f#32, .byte 1, .byte 1, .byte 1, .byte 0, .int 0, .int 0, .byte 2, .byte 0, .byte s.machine, .byte 0,
   .int 1, .int (int (elfStart + headerLen)), .int 0x34#32,
   .int (int (headerLen + s.code.idx + s.data.idx + 39 + s.symtab.idx + s.strtab.idx)),
   .int s.flags, .byte 0x34, .byte 0, .byte 0x20, .byte 0, .byte 1, .byte 0, .byte 0x28, .byte 0, .byte 6, .byte 0,
   .byte 5, .byte 0,
   .int 1, .int (int headerLen), .int (int (elfStart + headerLen)), .int (int (elfStart + headerLen)),
   .int (int (s.code.idx + s.data.idx)), .int (int (s.code.idx + s.data.idx)), .int 7, .int 4]

def generateHeader (s : St) : St := { s with header := s.header.writes (headerWrites s) }

def ascii (s : String) : List Byte := s.toList.map fun c => BitVec.ofNat 8 c.toNat

/-- The section name table written in `elf_generate_sections` (src/elf.c:125-136). -/
def shstrWrites : List Wr :=
  [.byte 0, .str (ascii ".shstrtab"), .byte 0, .str (ascii ".text"), .byte 0, .str (ascii ".data"), .byte 0,
   .str (ascii ".symtab"), .byte 0, .str (ascii ".strtab"), .byte 0]

/-- The section header table written in `elf_generate_sections` (src/elf.c:138-212). -/
def tableWrites (s : St) : List Wr :=
  [.int 0, .int 0, .int 0, .int 0, .int 0, .int 0, .int 0, .int 0, .int 0, .int 0,
   -- .text
   .int 0xb#32, .int 1, .int 7, .int (int (elfStart + headerLen)), .int (int headerLen), .int (int s.code.idx),
   .int 0, .int 0, .int 4, .int 0,
   -- .data
   .int 0x11#32, .int 1, .int 3, .int (int (codeStart + s.code.idx)), .int (int (headerLen + s.code.idx)),
   .int (int s.data.idx), .int 0, .int 0, .int 4, .int 0,
   -- .symtab
   .int 0x17#32, .int 2, .int 0, .int 0, .int (int (headerLen + s.code.idx + s.data.idx)), .int (int s.symtab.idx),
   .int 4, .int (int s.symbols), .int 4, .int 16,
   -- .strtab
   .int 0x1f#32, .int 3, .int 0, .int 0, .int (int (headerLen + s.code.idx + s.data.idx + s.symtab.idx)),
   .int (int s.strtab.idx), .int 0, .int 0, .int 1, .int 0,
   -- .shstrtab
   .int 1, .int 3, .int 0, .int 0,
   .int (int (headerLen + s.code.idx + s.data.idx + s.symtab.idx + s.strtab.idx)), .int 39, .int 0, .int 0, .int 1,
   .int 0]

/-- `elf_generate_sections` (src/elf.c:115-213): symtab and strtab bytes, then names, then the table. -/
def generateSections (s : St) : St :=
  { s with sect :=
      (((s.sect.putStr s.symtab.bytes).putStr s.strtab.bytes).writes shstrWrites).writes (tableWrites s) }

/-- `remainder = idx & 3; if (remainder) idx += 4 - remainder` -/
def alignIdx (b : Buf) : Buf := if b.idx % 4 = 0 then b else { b with idx := b.idx + (4 - b.idx % 4) }

/-- `elf_align` (src/elf.c:215-228): the skipped bytes keep whatever the buffer holds. -/
def align (s : St) : St :=
  { s with data := alignIdx s.data, symtab := alignIdx s.symtab, strtab := alignIdx s.strtab }

/-- `elf_generate` (src/elf.c:243-267): the indices of the symbol buffers are reset first, so no symbol is written.
The result is the content of the output file. -/
def generate (s : St) : List Byte :=
  let s := { s with
    symbols := 0
    symtab := { s.symtab with idx := 0 }
    strtab := { s.strtab with idx := 0 }
    sect := { s.sect with idx := 0 } }
  let s := generateSections (generateHeader (align s))
  s.header.bytes ++ s.code.bytes ++ s.data.bytes ++ s.sect.bytes

/-- `elf_add_symbol` (src/elf.c:230-241). -/
def addSymbol (s : St) (symbol : List Byte) (pc : CInt) : St :=
  { s with
    symtab := s.symtab.writes
      [.int (int s.strtab.idx), .int pc, .int 0, .int (if pc = 0#32 then 0 else 0x10000#32)]
    strtab := (s.strtab.putStr symbol).put 0
    symbols := s.symbols + 1 }

/-- `write_symbol(literal, strlen(literal) + 1)` (src/parser.c:55-60, 611): append the literal with its terminator, return
its position. -/
def writeSymbol (d : Buf) (lit : List Byte) : Buf × Nat := (d.putStr (lit ++ [0]), d.idx)

/-- `emit` for each word (src/riscv-codegen.c `emit`, src/elf.c:64-67). -/
def writeCode (c : Buf) (ws : List CInt) : Buf := ws.foldl Buf.putInt c

end Shecc.Elf
