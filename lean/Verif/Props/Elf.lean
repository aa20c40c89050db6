import Verif.Model.Elf
import Verif.Spec.ElfFile
import Verif.Props.RvProgram
import Verif.Props.ArmProgram

/-!
# C23-C25: the output file
-/

namespace Shecc.Elf

theorem bytes_length (b : Buf) : b.bytes.length = b.idx := by simp [Buf.bytes]

theorem bytes_put (b : Buf) (v : Byte) : (b.put v).bytes = b.bytes ++ [v] := by
  simp only [Buf.bytes, Buf.put, List.range_succ, List.map_append, List.map_cons, List.map_nil, if_true]
  congr 1
  apply List.map_congr_left
  intro i hi
  have := List.mem_range.mp hi
  rw [if_neg (by omega)]

/-- The four bytes of an int, least significant first. -/
def le (v : CInt) : List Byte := [extractByte v 0, extractByte v 1, extractByte v 2, extractByte v 3]

theorem bytes_putInt (b : Buf) (v : CInt) : (b.putInt v).bytes = b.bytes ++ le v := by
  have : b.putInt v = (((b.put (extractByte v 0)).put (extractByte v 1)).put (extractByte v 2)).put (extractByte v 3) := rfl
  rw [this]
  simp [bytes_put, le]

theorem bytes_putStr (s : List Byte) : ∀ b : Buf, (b.putStr s).bytes = b.bytes ++ s := by
  induction s with
  | nil => intro b; simp [Buf.putStr]
  | cons v s ih =>
    intro b
    have : b.putStr (v :: s) = (b.put v).putStr s := rfl
    rw [this, ih, bytes_put]; simp

def Wr.bytes : Wr → List Byte
  | .byte v => [v]
  | .int v => le v
  | .str s => s

theorem bytes_writes (ws : List Wr) : ∀ b : Buf, (b.writes ws).bytes = b.bytes ++ ws.flatMap Wr.bytes := by
  induction ws with
  | nil => intro b; simp [Buf.writes]
  | cons w ws ih =>
    intro b
    have : b.writes (w :: ws) = (b.write w).writes ws := rfl
    rw [this, ih]
    cases w <;> simp [Buf.write, bytes_put, bytes_putInt, bytes_putStr, Wr.bytes]

theorem bytes_writeCode (ws : List CInt) : ∀ b : Buf, (writeCode b ws).bytes = b.bytes ++ ws.flatMap le := by
  induction ws with
  | nil => intro b; simp [writeCode]
  | cons w ws ih =>
    intro b
    have : writeCode b (w :: ws) = writeCode (b.putInt w) ws := rfl
    rw [this, ih, bytes_putInt]; simp

theorem le_sum (v : CInt) : (extractByte v 0).toNat + 256 * (extractByte v 1).toNat + 65536 * (extractByte v 2).toNat +
    16777216 * (extractByte v 3).toNat = v.toNat := by
  have h : ∀ b : Nat, b < 4 → (extractByte v b).toNat = v.toNat / 2 ^ (8 * b) % 256 := by
    intro b hb
    have : extractByte v b = v.extractLsb' (8 * b) 8 := by
      apply BitVec.eq_of_getLsbD_eq
      intro i hi
      simp only [extractByte, BitVec.getLsbD_setWidth, BitVec.getLsbD_and, BitVec.getLsbD_sshiftRight,
        BitVec.getLsbD_extractLsb']
      have : (0xFF#32).getLsbD i = true := by
        have : i = 0 ∨ i = 1 ∨ i = 2 ∨ i = 3 ∨ i = 4 ∨ i = 5 ∨ i = 6 ∨ i = 7 := by omega
        rcases this with rfl | rfl | rfl | rfl | rfl | rfl | rfl | rfl <;> decide
      rw [this]
      have e1 : decide (i < 8) = true := by simpa using hi
      have e2 : decide (i < 32) = true := by simp; omega
      rw [if_pos (by omega)]
      have e3 : (decide (32 ≤ i)) = false := by simp; omega
      simp [e1, e2, e3, Nat.mul_comm]
    rw [this, BitVec.extractLsb'_toNat, Nat.shiftRight_eq_div_pow]
  rw [h 0 (by omega), h 1 (by omega), h 2 (by omega), h 3 (by omega)]
  have := v.isLt
  simp only [Nat.reduceMul, Nat.pow_zero, Nat.div_one, Nat.reducePow]
  omega

end Shecc.Elf

namespace Shecc.Props
open Shecc Shecc.Elf ElfFile

/-- C23: writing an int at any position of a buffer advances the position by four, a little-endian reader recovers the
value there, and no other byte changes. -/
theorem C23_write_int (buf : Nat → Byte) (index : Nat) (val : CInt) :
    (writeInt buf index val).2 = index + 4 ∧
    (∀ i, i < index ∨ index + 4 ≤ i → (writeInt buf index val).1 i = buf i) ∧
    ∀ f : File, (∀ i, i < 4 → f.getD (index + i) 0#8 = (writeInt buf index val).1 (index + i)) →
      u32 f index = val.toNat := by
  refine ⟨rfl, ?_, ?_⟩
  · intro i hi
    simp only [writeInt, Buf.put]
    rw [if_neg (by omega), if_neg (by omega), if_neg (by omega), if_neg (by omega)]
  · intro f hf
    have h0 := hf 0 (by omega)
    have h1 := hf 1 (by omega)
    have h2 := hf 2 (by omega)
    have h3 := hf 3 (by omega)
    simp only [writeInt, Buf.put] at h0 h1 h2 h3
    simp at h0 h1 h2 h3
    rw [if_neg (by omega), if_neg (by omega)] at h0
    simp only [u32, u8, List.getD_eq_getElem?_getD, Nat.add_zero] at *
    rw [h0, h1, h2, h3, le_sum]

theorem u8_append_right (a b : File) (j : Nat) : u8 (a ++ b) (a.length + j) = u8 b j := by
  simp [u8, List.getD_eq_getElem?_getD, List.getElem?_append_right]

theorem u8_append_left (a b : File) (j : Nat) (h : j < a.length) : u8 (a ++ b) j = u8 a j := by
  simp [u8, List.getD_eq_getElem?_getD, List.getElem?_append_left h]

theorem u16_append_left (a b : File) (j : Nat) (h : j + 2 ≤ a.length) : u16 (a ++ b) j = u16 a j := by
  simp only [u16]
  rw [u8_append_left _ _ _ (by omega), u8_append_left _ _ _ (by omega)]

theorem u32_append_left (a b : File) (j : Nat) (h : j + 4 ≤ a.length) : u32 (a ++ b) j = u32 a j := by
  simp only [u32]
  rw [u8_append_left _ _ _ (by omega), u8_append_left _ _ _ (by omega), u8_append_left _ _ _ (by omega),
    u8_append_left _ _ _ (by omega)]

theorem u32_append_right (a b : File) (j : Nat) : u32 (a ++ b) (a.length + j) = u32 b j := by
  simp only [u32, Nat.add_assoc, u8_append_right]

theorem slice_mid (a b c : File) : slice (a ++ b ++ c) a.length b.length = b := by
  simp [slice, List.append_assoc]

theorem int_toNat (n : Nat) (h : n < 2 ^ 32) : (int n).toNat = n := by
  simp [int, Nat.mod_eq_of_lt h]

/-- The 84 bytes of the headers. -/
def hdrBytes (s : St) : List Byte := (headerWrites s).flatMap Wr.bytes

/-- The section names. -/
def shstr : List Byte := [0] ++ ascii ".shstrtab" ++ [0] ++ ascii ".text" ++ [0] ++ ascii ".data" ++ [0] ++
  ascii ".symtab" ++ [0] ++ ascii ".strtab" ++ [0]

theorem hdr_length (s : St) : (hdrBytes s).length = 84 := rfl

set_option maxRecDepth 4000 in
theorem tbl_length (s : St) : ((tableWrites s).flatMap Wr.bytes).length = 240 := rfl

theorem shstr_length : shstr.length = 39 := by decide

/-- the state that `elf_generate` writes out -/
def final (s : St) : St := align { s with
    symbols := 0
    symtab := { s.symtab with idx := 0 }
    strtab := { s.strtab with idx := 0 }
    sect := { s.sect with idx := 0 } }

theorem shstr_writes : shstrWrites.flatMap Wr.bytes = shstr := by
  simp [shstrWrites, shstr, Wr.bytes]

theorem generate_eq (s : St) (h0 : s.header.idx = 0) :
    generate s = hdrBytes (final s) ++ s.code.bytes ++ (alignIdx s.data).bytes ++ shstr ++
      (tableWrites (final s)).flatMap Wr.bytes := by
  have e1 : generate s = (generateHeader (final s)).header.bytes ++ s.code.bytes ++ (alignIdx s.data).bytes ++
    (generateSections (generateHeader (final s))).sect.bytes := rfl
  have e2 : (generateHeader (final s)).header.bytes = hdrBytes (final s) := by
    simp only [generateHeader, bytes_writes, hdrBytes]
    have : (final s).header.bytes = [] := by
      simp [final, align, Buf.bytes, h0]
    rw [this, List.nil_append]
  have e3 : (generateSections (generateHeader (final s))).sect.bytes =
      shstr ++ (tableWrites (final s)).flatMap Wr.bytes := by
    simp only [generateSections, bytes_writes, bytes_putStr]
    have a1 : (generateHeader (final s)).sect.bytes = [] := by simp [generateHeader, final, align, Buf.bytes]
    have a2 : (generateHeader (final s)).symtab.bytes = [] := by simp [generateHeader, final, align, Buf.bytes, alignIdx]
    have a3 : (generateHeader (final s)).strtab.bytes = [] := by simp [generateHeader, final, align, Buf.bytes, alignIdx]
    have a4 : tableWrites (generateHeader (final s)) = tableWrites (final s) := by
      simp only [tableWrites, generateHeader]
    rw [a1, a2, a3, a4]
    rw [shstr_writes]; simp
  rw [e1, e2, e3, List.append_assoc, List.append_assoc, List.append_assoc, List.append_assoc, List.append_assoc]

theorem le_u32 (v : CInt) (l : List Byte) : u32 (le v ++ l) 0 = v.toNat := by
  simp only [u32, u8, le]
  exact le_sum v

theorem int_mod (n : Nat) : (int n).toNat = n % 2 ^ 32 := by simp [int]

/-- Facts about the fixed headers. -/
theorem hdr_fields (s : St) :
    (hdrBytes s).take 4 = [0x7f#8, 0x45#8, 0x4c#8, 0x46#8] ∧
    u8 (hdrBytes s) 4 = 1 ∧ u8 (hdrBytes s) 5 = 1 ∧ u8 (hdrBytes s) 6 = 1 ∧ u8 (hdrBytes s) 7 = 0 ∧
    u16 (hdrBytes s) 16 = 2 ∧ u16 (hdrBytes s) 18 = s.machine.toNat ∧ u32 (hdrBytes s) 20 = 1 ∧
    u32 (hdrBytes s) 24 = 0x10054 ∧ u32 (hdrBytes s) 28 = 0x34 ∧
    u32 (hdrBytes s) 32 = (headerLen + s.code.idx + s.data.idx + 39 + s.symtab.idx + s.strtab.idx) % 2 ^ 32 ∧
    u32 (hdrBytes s) 36 = s.flags.toNat ∧ u16 (hdrBytes s) 40 = 0x34 ∧ u16 (hdrBytes s) 42 = 0x20 ∧
    u16 (hdrBytes s) 44 = 1 ∧ u16 (hdrBytes s) 46 = 0x28 ∧ u16 (hdrBytes s) 48 = 6 ∧ u16 (hdrBytes s) 50 = 5 ∧
    u32 (hdrBytes s) 52 = 1 ∧ u32 (hdrBytes s) 56 = 0x54 ∧ u32 (hdrBytes s) 60 = 0x10054 ∧
    u32 (hdrBytes s) 64 = 0x10054 ∧ u32 (hdrBytes s) 68 = (s.code.idx + s.data.idx) % 2 ^ 32 ∧
    u32 (hdrBytes s) 72 = (s.code.idx + s.data.idx) % 2 ^ 32 ∧ u32 (hdrBytes s) 76 = 7 ∧ u32 (hdrBytes s) 80 = 4 := by
  refine ⟨by rfl, by rfl, by rfl, by rfl, by rfl, by rfl, by rfl, (le_sum 1#32).trans (by decide),
    (le_sum (int (elfStart + headerLen))).trans (by decide), (le_sum 0x34#32).trans (by decide), ?_, ?_, by rfl,
    by rfl, by rfl, by rfl, by rfl, by rfl, (le_sum 1#32).trans (by decide), (le_sum (int headerLen)).trans (by decide),
    (le_sum (int (elfStart + headerLen))).trans (by decide), (le_sum (int (elfStart + headerLen))).trans (by decide),
    ?_, ?_, (le_sum 7#32).trans (by decide), (le_sum 4#32).trans (by decide)⟩
  · rw [← int_mod]; exact le_sum _
  · exact le_sum _
  · rw [← int_mod]; exact le_sum _
  · rw [← int_mod]; exact le_sum _

def tblBytes (s : St) : List Byte := (tableWrites s).flatMap Wr.bytes

/-- Facts about the section header table. -/
theorem tbl_text (s : St) :
    u32 (tblBytes s) 40 = 11 ∧ u32 (tblBytes s) 44 = 1 ∧ u32 (tblBytes s) 48 = 7 ∧ u32 (tblBytes s) 52 = 0x10054 ∧
    u32 (tblBytes s) 56 = 0x54 ∧ u32 (tblBytes s) 60 = s.code.idx % 2 ^ 32 :=
  ⟨(le_sum 11#32).trans (by decide), (le_sum 1#32).trans (by decide), (le_sum 7#32).trans (by decide),
    (le_sum (int (elfStart + headerLen))).trans (by decide), (le_sum (int headerLen)).trans (by decide),
    (le_sum (int s.code.idx)).trans (int_mod _)⟩

theorem tbl_data (s : St) :
    u32 (tblBytes s) 80 = 17 ∧ u32 (tblBytes s) 84 = 1 ∧ u32 (tblBytes s) 88 = 3 ∧
    u32 (tblBytes s) 92 = (codeStart + s.code.idx) % 2 ^ 32 ∧
    u32 (tblBytes s) 96 = (headerLen + s.code.idx) % 2 ^ 32 ∧ u32 (tblBytes s) 100 = s.data.idx % 2 ^ 32 :=
  ⟨(le_sum 0x11#32).trans (by decide), (le_sum 1#32).trans (by decide), (le_sum 3#32).trans (by decide),
    (le_sum (int (codeStart + s.code.idx))).trans (int_mod _), (le_sum (int (headerLen + s.code.idx))).trans (int_mod _),
    (le_sum (int s.data.idx)).trans (int_mod _)⟩

theorem tbl_symtab (s : St) :
    u32 (tblBytes s) 120 = 23 ∧ u32 (tblBytes s) 124 = 2 ∧ u32 (tblBytes s) 128 = 0 ∧ u32 (tblBytes s) 132 = 0 ∧
    u32 (tblBytes s) 136 = (headerLen + s.code.idx + s.data.idx) % 2 ^ 32 ∧
    u32 (tblBytes s) 140 = s.symtab.idx % 2 ^ 32 :=
  ⟨(le_sum 0x17#32).trans (by decide), (le_sum 2#32).trans (by decide), (le_sum 0#32).trans (by decide),
    (le_sum 0#32).trans (by decide), (le_sum (int (headerLen + s.code.idx + s.data.idx))).trans (int_mod _),
    (le_sum (int s.symtab.idx)).trans (int_mod _)⟩

theorem tbl_strtab (s : St) :
    u32 (tblBytes s) 160 = 31 ∧ u32 (tblBytes s) 164 = 3 ∧ u32 (tblBytes s) 168 = 0 ∧ u32 (tblBytes s) 172 = 0 ∧
    u32 (tblBytes s) 176 = (headerLen + s.code.idx + s.data.idx + s.symtab.idx) % 2 ^ 32 ∧
    u32 (tblBytes s) 180 = s.strtab.idx % 2 ^ 32 :=
  ⟨(le_sum 0x1f#32).trans (by decide), (le_sum 3#32).trans (by decide), (le_sum 0#32).trans (by decide),
    (le_sum 0#32).trans (by decide), (le_sum (int (headerLen + s.code.idx + s.data.idx + s.symtab.idx))).trans (int_mod _),
    (le_sum (int s.strtab.idx)).trans (int_mod _)⟩

theorem tbl_shstr (s : St) :
    u32 (tblBytes s) 200 = 1 ∧ u32 (tblBytes s) 204 = 3 ∧ u32 (tblBytes s) 208 = 0 ∧ u32 (tblBytes s) 212 = 0 ∧
    u32 (tblBytes s) 216 = (headerLen + s.code.idx + s.data.idx + s.symtab.idx + s.strtab.idx) % 2 ^ 32 ∧
    u32 (tblBytes s) 220 = 39 :=
  ⟨(le_sum 1#32).trans (by decide), (le_sum 3#32).trans (by decide), (le_sum 0#32).trans (by decide),
    (le_sum 0#32).trans (by decide),
    (le_sum (int (headerLen + s.code.idx + s.data.idx + s.symtab.idx + s.strtab.idx))).trans (int_mod _),
    (le_sum 39#32).trans (by decide)⟩

theorem tbl_null (s : St) : ∀ j, j < 10 → u32 (tblBytes s) (4 * j) = 0 := by
  intro j hj
  have : j = 0 ∨ j = 1 ∨ j = 2 ∨ j = 3 ∨ j = 4 ∨ j = 5 ∨ j = 6 ∨ j = 7 ∨ j = 8 ∨ j = 9 := by omega
  rcases this with rfl | rfl | rfl | rfl | rfl | rfl | rfl | rfl | rfl | rfl <;> exact (le_sum 0#32).trans (by decide)

theorem slice_append (a b : File) (j n : Nat) : slice (a ++ b) (a.length + j) n = slice b j n := by
  unfold slice
  rw [List.drop_append, List.drop_of_length_le (by omega)]
  simp

theorem slice_left (a b : File) (j n : Nat) (h : j + n ≤ a.length) : slice (a ++ b) j n = slice a j n := by
  unfold slice
  rw [List.drop_append, List.take_append_of_le_length (by simp; omega)]

theorem align_idx_lt (b : Buf) : b.idx ≤ (alignIdx b).idx ∧ (alignIdx b).idx < b.idx + 4 ∧ (alignIdx b).idx % 4 = 0 := by
  unfold alignIdx
  split
  · omega
  · simp only; omega

theorem final_idx (s : St) : (final s).code = s.code ∧ (final s).data = alignIdx s.data ∧ (final s).symtab.idx = 0 ∧
    (final s).strtab.idx = 0 ∧ (final s).machine = s.machine ∧ (final s).flags = s.flags :=
  ⟨rfl, rfl, rfl, rfl, rfl, rfl⟩

set_option maxHeartbeats 1000000 in
/-- C24: the output file, for any code and data that fit their buffers: `pad` is the (at most 3) padding bytes after the
data. -/
theorem C24_elf (s : St) (h0 : s.header.idx = 0) (hc : s.code.idx ≤ 262144) (hd : s.data.idx ≤ 262144) :
    ∃ f pad, generate s = f ∧ (s.data.bytes ++ pad).length % 4 = 0 ∧ pad.length < 4 ∧
    -- identification and header
    f.take 4 = [0x7f#8, 0x45#8, 0x4c#8, 0x46#8] ∧ u8 f 4 = 1 ∧ u8 f 5 = 1 ∧ u8 f 6 = 1 ∧
    e_type f = 2 ∧ e_machine f = s.machine.toNat ∧ e_version f = 1 ∧ e_flags f = s.flags.toNat ∧
    e_ehsize f = 52 ∧ e_phoff f = 52 ∧ e_phentsize f = 32 ∧ e_phnum f = 1 ∧
    e_shentsize f = 40 ∧ e_shnum f = 6 ∧ e_shstrndx f = 5 ∧ f.length = e_shoff f + 6 * 40 ∧
    -- the loadable segment is exactly code and data, right after the headers, at the entry address
    ph f 0 0 = 1 ∧ ph f 0 1 = 84 ∧ ph f 0 2 = e_entry f ∧ ph f 0 3 = e_entry f ∧ ph f 0 5 = ph f 0 4 ∧
    slice f (ph f 0 1) (ph f 0 4) = s.code.bytes ++ (s.data.bytes ++ pad) ∧
    ph f 0 4 = (s.code.bytes ++ (s.data.bytes ++ pad)).length ∧ ph f 0 6 = 7 ∧ ph f 0 7 = 4 ∧
    e_entry f = 0x10054 ∧
    -- the sections
    (∀ j, j < 10 → sh f 0 j = 0) ∧
    IsSection f 1 (ascii ".text") 1 7 (e_entry f) s.code.bytes ∧
    IsSection f 2 (ascii ".data") 1 3 (e_entry f + s.code.bytes.length) (s.data.bytes ++ pad) ∧
    IsSection f 3 (ascii ".symtab") 2 0 0 [] ∧
    IsSection f 4 (ascii ".strtab") 3 0 0 [] ∧
    IsSection f 5 (ascii ".shstrtab") 3 0 0
      ([0] ++ ascii ".shstrtab" ++ [0] ++ ascii ".text" ++ [0] ++ ascii ".data" ++ [0] ++ ascii ".symtab" ++ [0] ++
        ascii ".strtab" ++ [0]) := by
  obtain ⟨a1, a2, a3⟩ := align_idx_lt s.data
  have hpad : ∃ pad, (alignIdx s.data).bytes = s.data.bytes ++ pad := by
    unfold alignIdx
    split
    · exact ⟨[], by simp⟩
    · simp only [Buf.bytes, List.range_add, List.map_append]
      exact ⟨_, rfl⟩
  obtain ⟨pad, hpad⟩ := hpad
  have hlen : (s.data.bytes ++ pad).length = (alignIdx s.data).idx := by rw [← hpad, bytes_length]
  have hlen' : pad.length = (alignIdx s.data).idx - s.data.idx := by
    rw [List.length_append, bytes_length] at hlen; omega
  obtain ⟨f1, f2, f3, f4, f5, f6⟩ := final_idx s
  obtain ⟨x1, x2, x3, x4, x5, x6, x7, x8, x9, x10, x11, x12, x13, x14, x15, x16, x17, x18, x19, x20, x21, x22, x23, x24, x25, x26⟩ := hdr_fields (final s)
  rw [f1, f2, f3, f4] at x11
  rw [f1, f2] at x23 x24
  rw [f5] at x7
  rw [f6] at x12
  obtain ⟨t1, t2, t3, t4, t5, t6⟩ := tbl_text (final s)
  obtain ⟨d1, d2, d3, d4, d5, d6⟩ := tbl_data (final s)
  obtain ⟨y1, y2, y3, y4, y5, y6⟩ := tbl_symtab (final s)
  obtain ⟨z1, z2, z3, z4, z5, z6⟩ := tbl_strtab (final s)
  obtain ⟨w1, w2, w3, w4, w5, w6⟩ := tbl_shstr (final s)
  rw [f1] at t6 d4 d5 y5 z5 w5
  rw [f2] at d6 y5 z5 w5
  rw [f3] at y6 z5 w5
  rw [f4] at z6 w5
  have hn := tbl_null (final s)
  have hH := hdr_length (final s)
  have hT : (tblBytes (final s)).length = 240 := tbl_length (final s)
  have hS := shstr_length
  have hgen : generate s = hdrBytes (final s) ++ s.code.bytes ++ (s.data.bytes ++ pad) ++ shstr ++ tblBytes (final s) := by
    rw [generate_eq s h0, hpad]; rfl
  have hcl := bytes_length s.code
  generalize hdrBytes (final s) = H at *
  generalize tblBytes (final s) = T at *
  generalize (alignIdx s.data).idx = D at *
  generalize s.code.bytes = C at *
  generalize hE : s.data.bytes ++ pad = E at *
  refine ⟨_, pad, rfl, ?_⟩
  rw [hgen, hE]
  clear hgen
  generalize hf : H ++ C ++ E ++ shstr ++ T = f
  have hl : ∀ j, j + 4 ≤ 84 → u32 f j = u32 H j := by
    intro j hj
    rw [← hf]
    simp only [List.append_assoc]
    exact u32_append_left _ _ _ (by omega)
  have hl2 : ∀ j, j + 2 ≤ 84 → u16 f j = u16 H j := by
    intro j hj
    rw [← hf]
    simp only [List.append_assoc]
    exact u16_append_left _ _ _ (by omega)
  have hl1 : ∀ j, j + 1 ≤ 84 → u8 f j = u8 H j := by
    intro j hj
    rw [← hf]
    simp only [List.append_assoc]
    exact u8_append_left _ _ _ (by omega)
  have hshoff : e_shoff f = 84 + s.code.idx + D + 39 := by
    unfold e_shoff
    rw [hl _ (by omega), x11]
    simp only [headerLen]; omega
  have hse : e_shentsize f = 40 := by unfold e_shentsize; rw [hl2 _ (by omega), x16]
  have hstrn : e_shstrndx f = 5 := by unfold e_shstrndx; rw [hl2 _ (by omega), x18]
  have hsh : ∀ k j, sh f k j = u32 T (k * 40 + 4 * j) := by
    intro k j
    unfold sh
    rw [hshoff, hse, ← hf]
    have : 84 + s.code.idx + D + 39 + k * 40 + 4 * j = (H ++ C ++ E ++ shstr).length + (k * 40 + 4 * j) := by
      simp only [List.length_append]; omega
    rw [this, u32_append_right]
  have hphoff : e_phoff f = 52 := by unfold e_phoff; rw [hl _ (by omega), x10]
  have hph : ∀ j, j < 8 → ph f 0 j = u32 H (52 + 4 * j) := by
    intro j hj
    unfold ph
    rw [hphoff, Nat.zero_mul, Nat.add_zero, hl _ (by omega)]
  have hent : e_entry f = 0x10054 := by unfold e_entry; rw [hl _ (by omega), x9]
  have hname : ∀ o str, slice shstr o (str.length + 1) = str ++ [0#8] → 0#8 ∉ str → o + (str.length + 1) ≤ 39 →
      IsStr f (sh f (e_shstrndx f) 4 + o) str := by
    intro o str h1 h2 h3
    refine ⟨?_, h2⟩
    rw [hstrn, hsh, w5, ← hf]
    have : (headerLen + s.code.idx + D + 0 + 0) % 2 ^ 32 + o = (H ++ C ++ E).length + o := by
      simp only [List.length_append, headerLen]; omega
    rw [this, List.append_assoc (H ++ C ++ E), slice_append, slice_left _ _ _ _ (by omega), h1]
  have hpe : ph f 0 4 = s.code.idx + D := by
    rw [hph 4 (by omega)]
    exact x23.trans (by omega)
  refine ⟨by omega, by omega, ?_, ?_, ?_, ?_, ?_, ?_, ?_, ?_, ?_, hphoff, ?_, ?_, hse, ?_, hstrn, ?_, ?_, ?_, ?_, ?_, ?_, ?_, ?_, ?_,
    ?_, hent, ?_, ?_, ?_, ?_, ?_, ?_⟩
  · rw [← hf, List.append_assoc, List.append_assoc, List.append_assoc,
      List.take_append_of_le_length (by omega), x1]
  · rw [hl1 _ (by omega), x2]
  · rw [hl1 _ (by omega), x3]
  · rw [hl1 _ (by omega), x4]
  · unfold e_type; rw [hl2 _ (by omega), x6]
  · unfold e_machine; rw [hl2 _ (by omega), x7]
  · unfold e_version; rw [hl _ (by omega), x8]
  · unfold e_flags; rw [hl _ (by omega), x12]
  · unfold e_ehsize; rw [hl2 _ (by omega), x13]
  · unfold e_phentsize; rw [hl2 _ (by omega), x14]
  · unfold e_phnum; rw [hl2 _ (by omega), x15]
  · unfold e_shnum; rw [hl2 _ (by omega), x17]
  · rw [hshoff, ← hf]; simp only [List.length_append]; omega
  · rw [hph 0 (by omega)]; exact x19
  · rw [hph 1 (by omega)]; exact x20
  · rw [hph 2 (by omega), hent]; exact x21
  · rw [hph 3 (by omega), hent]; exact x22
  · rw [hpe, hph 5 (by omega)]; exact x24.trans (by omega)
  · rw [hpe, hph 1 (by omega), ← hf]
    have e1 : u32 H (52 + 4 * 1) = H.length := by rw [hH]; exact x20
    have e2 : s.code.idx + D = (C ++ E).length := by simp only [List.length_append]; omega
    rw [e1, e2]
    have := slice_mid H (C ++ E) (shstr ++ T)
    simpa only [List.append_assoc] using this
  · rw [hpe]; simp only [List.length_append]; omega
  · rw [hph 6 (by omega)]; exact x25
  · rw [hph 7 (by omega)]; exact x26
  · intro j hj; rw [hsh, Nat.zero_mul, Nat.zero_add]; exact hn j hj
  · refine ⟨?_, ?_, ?_, ?_, ?_, ?_⟩
    · rw [hsh 1 0, t1]; exact hname 11 _ (by decide) (by decide) (by decide)
    · rw [hsh]; exact t2
    · rw [hsh]; exact t3
    · rw [hsh, hent]; exact t4
    · rw [hsh, hsh, t5, t6, ← hf]
      have e1 : 0x54 = H.length := hH.symm
      have e2 : s.code.idx % 2 ^ 32 = C.length := by omega
      rw [e1, e2]
      have := slice_mid H C (E ++ shstr ++ T)
      simpa only [List.append_assoc] using this
    · rw [hsh, hcl]; exact t6.trans (by omega)
  · refine ⟨?_, ?_, ?_, ?_, ?_, ?_⟩
    · rw [hsh 2 0, d1]; exact hname 17 _ (by decide) (by decide) (by decide)
    · rw [hsh]; exact d2
    · rw [hsh]; exact d3
    · rw [hsh, hent, hcl]; exact d4.trans (by simp only [codeStart, elfStart, headerLen]; omega)
    · rw [hsh, hsh, d5, d6, ← hf]
      have e1 : (headerLen + s.code.idx) % 2 ^ 32 = (H ++ C).length := by
        simp only [List.length_append, headerLen]; omega
      have e2 : D % 2 ^ 32 = E.length := by omega
      rw [e1, e2]
      have := slice_mid (H ++ C) E (shstr ++ T)
      simpa only [List.append_assoc] using this
    · rw [hsh, hlen]; exact d6.trans (by omega)
  · refine ⟨?_, ?_, ?_, ?_, ?_, ?_⟩
    · rw [hsh 3 0, y1]; exact hname 23 _ (by decide) (by decide) (by decide)
    · rw [hsh]; exact y2
    · rw [hsh]; exact y3
    · rw [hsh]; exact y4
    · rw [hsh 3 5, y6]; simp [slice]
    · rw [hsh]; exact y6
  · refine ⟨?_, ?_, ?_, ?_, ?_, ?_⟩
    · rw [hsh 4 0, z1]; exact hname 31 _ (by decide) (by decide) (by decide)
    · rw [hsh]; exact z2
    · rw [hsh]; exact z3
    · rw [hsh]; exact z4
    · rw [hsh 4 5, z6]; simp [slice]
    · rw [hsh]; exact z6
  · refine ⟨?_, ?_, ?_, ?_, ?_, ?_⟩
    · rw [hsh 5 0, w1]; exact hname 1 _ (by decide) (by decide) (by decide)
    · rw [hsh]; exact w2
    · rw [hsh]; exact w3
    · rw [hsh]; exact w4
    · rw [hsh, hsh, w5, w6, ← hf]
      have e1 : (headerLen + s.code.idx + D + 0 + 0) % 2 ^ 32 = (H ++ C ++ E).length := by
        simp only [List.length_append, headerLen]; omega
      rw [e1, ← hS]
      exact slice_mid (H ++ C ++ E) shstr T
    · rw [hsh]; refine Eq.trans (b := 39) w6 ?_; exact hS.symm

/-- The data buffer after a sequence of literals has been read (`read_literal_param`, one after the other). -/
def writeLiterals (d : Buf) (lits : List (List Byte)) : Buf := lits.foldl (fun d l => (writeSymbol d l).1) d

theorem writeLiterals_bytes (lits : List (List Byte)) : ∀ d : Buf,
    (writeLiterals d lits).bytes = d.bytes ++ lits.flatMap (· ++ [0]) := by
  induction lits with
  | nil => intro d; simp [writeLiterals]
  | cons l ls ih =>
    intro d
    have : writeLiterals d (l :: ls) = writeLiterals (writeSymbol d l).1 ls := rfl
    rw [this, ih]
    simp [writeSymbol, bytes_putStr]

theorem writeCode_length (ws : List CInt) (c : Buf) (h : c.idx = 0) : (writeCode c ws).idx = 4 * ws.length := by
  rw [← bytes_length, bytes_writeCode, List.length_append, bytes_length, h]
  have : ∀ ws : List CInt, (ws.flatMap le).length = 4 * ws.length := by
    intro ws
    induction ws with
    | nil => rfl
    | cons w ws ih => simp only [List.flatMap_cons, List.length_append, ih, List.length_cons]; simp [le]; omega
  rw [this]; omega

theorem literal_address (base : CInt) (img : List CInt) (hbase : base = 0x10054#32 + BitVec.ofNat 32 (4 * img.length))
    (hfit : 4 * img.length ≤ 262144) (s : St) (c0 d0 : Buf)
    (h0 : s.header.idx = 0) (hc0 : c0.idx = 0) (hd0 : d0.idx = 0) (hcode : s.code = writeCode c0 img)
    (pre post : List (List Byte)) (lit : List Byte) (hdata : s.data = writeLiterals d0 (pre ++ lit :: post))
    (hsize : s.data.idx ≤ 262144) (mem : BitVec 32 → BitVec 8) (hmem : Loaded (generate s) mem) :
    ∀ i, i ≤ lit.length →
      mem (base + BitVec.ofNat 32 (writeSymbol (writeLiterals d0 pre) lit).2 + BitVec.ofNat 32 i) =
        (lit ++ [0#8]).getD i 0#8 := by
  intro i hi
  have hcl := writeCode_length img c0 hc0
  rw [← hcode] at hcl
  obtain ⟨f, pad, hgen, -, -, -, -, -, -, -, -, -, -, -, hphoff, hphe, hphn, -, -, -, -, p0, p1, p2, -, -, psl, psz, -, -, hent, -⟩ :=
    C24_elf s h0 (by omega) hsize
  rw [hgen] at hmem
  have hk := hmem 0 (by omega) p0
  have hbytes : s.data.bytes = (writeLiterals d0 pre).bytes ++ (lit ++ [0]) ++ post.flatMap (· ++ [0]) := by
    rw [hdata, writeLiterals_bytes, writeLiterals_bytes]
    simp [Buf.bytes, hd0]
  have hidx : (writeSymbol (writeLiterals d0 pre) lit).2 = (writeLiterals d0 pre).bytes.length := by
    rw [bytes_length]; rfl
  have hdl : s.data.bytes.length = s.data.idx := bytes_length _
  have hcl' := bytes_length s.code
  rw [hidx]
  generalize (writeLiterals d0 pre).bytes = A at *
  have hlt : A.length + i < s.data.idx := by
    rw [← hdl, hbytes]; simp only [List.length_append, List.length_cons, List.length_nil]; omega
  have hk' := hk (4 * img.length + (A.length + i)) (by
    rw [psz]; simp only [List.length_append]; omega)
  rw [p2, hent] at hk'
  have eaddr : base + BitVec.ofNat 32 A.length + BitVec.ofNat 32 i =
      BitVec.ofNat 32 (0x10054 + (4 * img.length + (A.length + i))) := by
    rw [hbase]
    apply BitVec.eq_of_toNat_eq
    simp only [BitVec.toNat_add, BitVec.toNat_ofNat]
    omega
  rw [eaddr, hk']
  have hg : ∀ j, j < ph f 0 4 → f.getD (ph f 0 1 + j) 0#8 = (slice f (ph f 0 1) (ph f 0 4)).getD j 0#8 := by
    intro j hj
    simp only [slice, List.getD_eq_getElem?_getD, List.getElem?_take, List.getElem?_drop]
    rw [if_pos hj]
  rw [hg _ (by rw [psz]; simp only [List.length_append]; omega), psl, hbytes]
  simp only [List.getD_eq_getElem?_getD]
  have e4 : 4 * img.length = s.code.bytes.length := by omega
  rw [e4, List.getElem?_append_right (by omega), Nat.add_sub_cancel_left]
  simp only [List.append_assoc]
  rw [List.getElem?_append_right (by omega), Nat.add_sub_cancel_left]
  rw [← List.append_assoc lit, List.getElem?_append_left (by simp; omega)]
  rfl

theorem compile_fits {T : Target} {hard : Bool} {P : Prog} {F : Flat} {img : List CInt}
    (h : compile T hard P = some (F, img)) : 4 * img.length ≤ 262144 := by
  unfold compile at h
  split at h
  · cases h
  · simp only [Option.map_eq_some_iff, Prod.mk.injEq] at h
    obtain ⟨ws, hw, -, rfl⟩ := h
    unfold codeGenerate at hw
    simp only at hw
    repeat' split at hw
    all_goals first
      | (cases hw; done)
      | (injection hw with hw; subst hw; assumption)

/-- C25 (RISC-V): for every compiled program, every sequence of string literals, and every loader: at the address the code
loads for a literal (`elf_data_start` plus the position recorded when the literal was read, see `C17_rv_data_address`)
memory holds the literal's bytes and then a zero byte. -/
theorem C25_rv_literal (hard : Bool) (P : Prog) (F : Flat) (img : List CInt)
    (h : compile Riscv.target hard P = some (F, img)) (hd : P.DistinctBlocks) (s : St) (c0 d0 : Buf)
    (h0 : s.header.idx = 0) (hc0 : c0.idx = 0) (hd0 : d0.idx = 0) (hcode : s.code = writeCode c0 img)
    (pre post : List (List Byte)) (lit : List Byte) (hdata : s.data = writeLiterals d0 (pre ++ lit :: post))
    (hsize : s.data.idx ≤ 262144) (mem : BitVec 32 → BitVec 8) (hmem : Loaded (generate s) mem) :
    ∀ i, i ≤ lit.length →
      mem ((emitEnv Riscv.target hard P F).dataStart + BitVec.ofNat 32 (writeSymbol (writeLiterals d0 pre) lit).2 +
          BitVec.ofNat 32 i) = (lit ++ [0#8]).getD i 0#8 :=
  literal_address _ img (C20_rv_layout hard P F img h hd).2.2 (compile_fits h) s c0 d0 h0 hc0 hd0 hcode pre post lit hdata hsize
    mem hmem

/-- C25 (ARM). -/
theorem C25_arm_literal (hard : Bool) (P : Prog) (F : Flat) (img : List CInt)
    (h : compile Arm.target hard P = some (F, img)) (hd : P.DistinctBlocks) (hP : P.ArmOk) (s : St) (c0 d0 : Buf)
    (h0 : s.header.idx = 0) (hc0 : c0.idx = 0) (hd0 : d0.idx = 0) (hcode : s.code = writeCode c0 img)
    (pre post : List (List Byte)) (lit : List Byte) (hdata : s.data = writeLiterals d0 (pre ++ lit :: post))
    (hsize : s.data.idx ≤ 262144) (mem : BitVec 32 → BitVec 8) (hmem : Loaded (generate s) mem) :
    ∀ i, i ≤ lit.length →
      mem ((emitEnv Arm.target hard P F).dataStart + BitVec.ofNat 32 (writeSymbol (writeLiterals d0 pre) lit).2 +
          BitVec.ofNat 32 i) = (lit ++ [0#8]).getD i 0#8 :=
  literal_address _ img (C20_arm_layout hard P F img h hd hP).2.2 (compile_fits h) s c0 d0 h0 hc0 hd0 hcode pre post lit hdata
    hsize mem hmem

/-- The loader hypothesis can be met for every output file. -/
theorem loaded_exists (s : St) (h0 : s.header.idx = 0) (hc : s.code.idx ≤ 262144) (hd : s.data.idx ≤ 262144) :
    ∃ mem, Loaded (generate s) mem := by
  obtain ⟨f, pad, hgen, -, hpad, -, -, -, -, -, -, -, -, -, hphoff, hphe, hphn, -, -, -, -, p0, p1, p2, -, -, psl, psz, -, -, hent, -⟩ :=
    C24_elf s h0 hc hd
  rw [hgen]
  refine ⟨fun a => f.getD (ph f 0 1 + (a.toNat - 0x10054)) 0#8, ?_⟩
  intro k hk h1 i hi
  have : k = 0 := by omega
  subst this
  rw [psz] at hi
  simp only [List.length_append, bytes_length] at hi
  rw [p2, hent]
  have : (BitVec.ofNat 32 (0x10054 + i)).toNat - 0x10054 = i := by
    rw [BitVec.toNat_ofNat, Nat.mod_eq_of_lt (by omega)]; omega
  simp only [this]

/-- C24: a symbol table entry names its symbol and holds its value; entries and names added before stay as they are.  (The
tables are emptied again before the file is written, so this concerns the buffers.) -/
theorem C24_add_symbol (s : St) (sym : List Byte) (pc : CInt) (h0 : 0#8 ∉ sym) (hs : s.strtab.idx < 2 ^ 32) :
    (∃ rest, (addSymbol s sym pc).symtab.bytes = s.symtab.bytes ++ rest ∧ rest.length = 16) ∧
    u32 (addSymbol s sym pc).symtab.bytes (s.symtab.idx + 4) = pc.toNat ∧
    IsStr (addSymbol s sym pc).strtab.bytes (u32 (addSymbol s sym pc).symtab.bytes s.symtab.idx) sym ∧
    (addSymbol s sym pc).strtab.bytes.take s.strtab.idx = s.strtab.bytes ∧ (addSymbol s sym pc).symbols = s.symbols + 1 := by
  have e : (addSymbol s sym pc).symtab.bytes =
      s.symtab.bytes ++ (le (int s.strtab.idx) ++ (le pc ++ (le 0 ++ le (if pc = 0#32 then 0 else 0x10000#32)))) := by
    simp [addSymbol, bytes_writes, Wr.bytes]
  have e2 : (addSymbol s sym pc).strtab.bytes = s.strtab.bytes ++ (sym ++ [0#8]) := by
    simp [addSymbol, bytes_put, bytes_putStr]
  have hl : s.symtab.bytes.length = s.symtab.idx := bytes_length _
  have hl2 : s.strtab.bytes.length = s.strtab.idx := bytes_length _
  have r1 : u32 (addSymbol s sym pc).symtab.bytes s.symtab.idx = s.strtab.idx := by
    have := u32_append_right s.symtab.bytes (le (int s.strtab.idx) ++ (le pc ++ (le 0 ++ le (if pc = 0#32 then 0 else 0x10000#32)))) 0
    rw [hl, Nat.add_zero] at this
    rw [e, this, le_u32, int_toNat _ hs]
  refine ⟨⟨_, e, by simp [le]⟩, ?_, ?_, ?_, rfl⟩
  · have := u32_append_right s.symtab.bytes (le (int s.strtab.idx) ++ (le pc ++ (le 0 ++ le (if pc = 0#32 then 0 else 0x10000#32)))) 4
    rw [hl] at this
    rw [e, this]
    have h4 : (le (int s.strtab.idx)).length = 4 := rfl
    have := u32_append_right (le (int s.strtab.idx)) (le pc ++ (le 0 ++ le (if pc = 0#32 then 0 else 0x10000#32))) 0
    rw [h4] at this
    rw [this, le_u32]
  · rw [r1, e2]
    refine ⟨?_, h0⟩
    have := slice_append s.strtab.bytes (sym ++ [0#8]) 0 (sym.length + 1)
    rw [hl2, Nat.add_zero] at this
    rw [this]
    unfold slice
    rw [List.drop_zero]
    exact List.take_of_length_le (by simp)
  · rw [e2, ← hl2]
    exact List.take_left' rfl

/-- A concrete writer state meeting all hypotheses of C24 and C25: two literals, two code words. -/
def elfDemo : St where
  header := ⟨fun _ => 0xAA, 0⟩
  code := writeCode ⟨fun _ => 0xAA, 0⟩ [0x13#32, 0x73#32]
  data := writeLiterals ⟨fun _ => 0xAA, 0⟩ [ascii "hi", ascii "x"]
  symtab := ⟨fun _ => 0xAA, 0⟩
  strtab := ⟨fun _ => 0xAA, 0⟩
  sect := ⟨fun _ => 0xAA, 0⟩
  symbols := 0
  machine := 0xf3
  flags := 0

set_option maxRecDepth 20000 in
example : (generate elfDemo).length = 84 + 8 + 8 + 39 + 240 := by decide
set_option maxRecDepth 20000 in
example : slice (generate elfDemo) 92 8 = ascii "hi" ++ [0] ++ ascii "x" ++ [0, 0xAA, 0xAA, 0xAA] := by decide
example : (writeSymbol (writeLiterals ⟨fun _ => 0xAA, 0⟩ [ascii "hi"]) (ascii "x")).2 = 3 := by decide

end Shecc.Props
