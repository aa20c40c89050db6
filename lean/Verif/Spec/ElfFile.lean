/-!
# Specification: reading a 32-bit little-endian ELF file

A reader's view of a file, from the ELF specification only.
-/

namespace ElfFile

abbrev File := List (BitVec 8)

def u8 (f : File) (o : Nat) : Nat := (f.getD o 0#8).toNat
def u16 (f : File) (o : Nat) : Nat := u8 f o + 256 * u8 f (o + 1)
def u32 (f : File) (o : Nat) : Nat := u8 f o + 256 * u8 f (o + 1) + 65536 * u8 f (o + 2) + 16777216 * u8 f (o + 3)

/-- `n` bytes at offset `o`. -/
def slice (f : File) (o n : Nat) : List (BitVec 8) := (f.drop o).take n

/-- The NUL-terminated string `s` is at offset `o`. -/
def IsStr (f : File) (o : Nat) (s : List (BitVec 8)) : Prop := slice f o (s.length + 1) = s ++ [0#8] ∧ 0#8 ∉ s

-- ELF header fields (Elf32_Ehdr)
def e_type (f : File) := u16 f 16
def e_machine (f : File) := u16 f 18
def e_version (f : File) := u32 f 20
def e_entry (f : File) := u32 f 24
def e_phoff (f : File) := u32 f 28
def e_shoff (f : File) := u32 f 32
def e_flags (f : File) := u32 f 36
def e_ehsize (f : File) := u16 f 40
def e_phentsize (f : File) := u16 f 42
def e_phnum (f : File) := u16 f 44
def e_shentsize (f : File) := u16 f 46
def e_shnum (f : File) := u16 f 48
def e_shstrndx (f : File) := u16 f 50

/-- Field `j` (a word) of program header `k`: type, offset, vaddr, paddr, filesz, memsz, flags, align. -/
def ph (f : File) (k j : Nat) : Nat := u32 f (e_phoff f + k * e_phentsize f + 4 * j)

/-- Field `j` of section header `k`: name, type, flags, addr, offset, size, link, info, addralign, entsize. -/
def sh (f : File) (k j : Nat) : Nat := u32 f (e_shoff f + k * e_shentsize f + 4 * j)

/-- Section `k` has this name, type, flags and address, and its offset and size delimit `content`. -/
structure IsSection (f : File) (k : Nat) (name : List (BitVec 8)) (type flags addr : Nat)
    (content : List (BitVec 8)) : Prop where
  h_name : IsStr f (sh f (e_shstrndx f) 4 + sh f k 0) name
  h_type : sh f k 1 = type
  h_flags : sh f k 2 = flags
  h_addr : sh f k 3 = addr
  h_content : slice f (sh f k 4) (sh f k 5) = content
  h_size : sh f k 5 = content.length

/-- What the loader puts in memory: every loadable segment's file bytes at its virtual address. -/
def Loaded (f : File) (mem : BitVec 32 → BitVec 8) : Prop :=
  ∀ k, k < e_phnum f → ph f k 0 = 1 → ∀ i, i < ph f k 4 →
    mem (BitVec.ofNat 32 (ph f k 2 + i)) = f.getD (ph f k 1 + i) 0#8

end ElfFile
