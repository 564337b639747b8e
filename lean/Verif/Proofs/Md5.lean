import Verif.Spec.RFC1321
import Verif.Model.Md5
import Mathlib.Tactic.IntervalCases
import Mathlib.Data.List.GetD

namespace FFTW.Md5

/-- low 32 bits -/
abbrev lo {w : Nat} (x : BitVec w) : BitVec 32 := x.setWidth 32

def loS {w : Nat} (q : Sig w) : RFC1321.State := ⟨lo q.s0, lo q.s1, lo q.s2, lo q.s3⟩

/-- widen a specification state -/
def upS (w : Nat) (q : RFC1321.State) : Sig w := ⟨q.a.setWidth w, q.b.setWidth w, q.c.setWidth w, q.d.setWidth w⟩

variable {w : Nat}

theorem and_msk (hw : 32 ≤ w) (x : BitVec w) : x &&& BitVec.ofNat w 0xffffffff = (lo x).setWidth w := by
  apply BitVec.eq_of_toNat_eq
  have h1 : (4294967295 : Nat) % 2 ^ w = 2 ^ 32 - 1 := by
    rw [Nat.mod_eq_of_lt (lt_of_lt_of_le (by norm_num) (Nat.pow_le_pow_right (by norm_num) hw))]
    norm_num
  simp only [BitVec.toNat_and, BitVec.toNat_ofNat, BitVec.toNat_setWidth, lo]
  rw [h1, Nat.and_two_pow_sub_one_eq_mod]
  rw [Nat.mod_eq_of_lt (a := x.toNat % 2 ^ 32)]
  exact lt_of_lt_of_le (Nat.mod_lt _ (by norm_num)) (Nat.pow_le_pow_right (by norm_num) hw)

theorem lo_up (hw : 32 ≤ w) (x : BitVec 32) : lo (x.setWidth w) = x := by
  simp only [lo]
  rw [BitVec.setWidth_setWidth_of_le _ hw]; simp

theorem lo_add (hw : 32 ≤ w) (x y : BitVec w) : lo (x + y) = lo x + lo y := BitVec.setWidth_add x y hw
theorem lo_ofNat (hw : 32 ≤ w) (n : Nat) : lo (BitVec.ofNat w n) = BitVec.ofNat 32 n := by
  simp only [lo]; exact BitVec.setWidth_ofNat_of_le hw n

theorem lo_rol (hw : 32 ≤ w) (a : BitVec 32) (s : Nat) (h0 : 0 < s) (hs : s < 32) :
    lo (rol (a.setWidth w) s) = a.rotateLeft s := by
  unfold rol
  rw [BitVec.rotateLeft_def, Nat.mod_eq_of_lt hs]
  simp only [lo, BitVec.setWidth_or]
  congr 1
  · apply BitVec.eq_of_getLsbD_eq
    intro i hi
    simp only [BitVec.getLsbD_setWidth, BitVec.getLsbD_shiftLeft]
    have : i < w := by omega
    have : i - s < w := by omega
    simp [*]
  · apply BitVec.eq_of_getLsbD_eq
    intro i hi
    simp only [BitVec.getLsbD_setWidth, BitVec.getLsbD_ushiftRight, hi, decide_true, Bool.true_and]
    by_cases h : 32 - s + i < w
    · simp [h]
    · have : ¬ (32 - s + i < 32) := by omega
      simp [h]; 
      rw [BitVec.getLsbD_of_ge _ _ (by omega)]

theorem tabs : ∀ i < 64, (roundtab.getD i (0,0)).1 = RFC1321.kOf i ∧ (roundtab.getD i (0,0)).2 = RFC1321.sOf i ∧
    BitVec.ofNat 32 (sintab.getD i 0) = RFC1321.T.getD i 0 ∧ 0 < RFC1321.sOf i ∧ RFC1321.sOf i < 32 ∧ i >>> 4 = i / 16 := by
  decide +kernel

theorem round_lo (hw : 32 ≤ w) (x : Nat → BitVec w) (X : Nat → BitVec 32) (hx : ∀ k, lo (x k) = X k)
    (q : Sig w) (i : Nat) (hi : i < 64) : loS (round x q i) = RFC1321.step X (loS q) i := by
  obtain ⟨h1, h2, h3, h4, h5, h6⟩ := tabs i hi
  have hd : i / 16 < 4 := by omega
  unfold round RFC1321.step loS
  simp only [h1, h2, h6]
  rw [and_msk hw]
  simp only [RFC1321.State.mk.injEq, true_and, and_true]
  rw [lo_add hw, lo_rol hw _ _ h4 h5, lo_add hw, lo_add hw, lo_ofNat hw, hx, h3]
  congr 2
  rw [BitVec.add_assoc, BitVec.add_comm (RFC1321.T.getD i 0), ← BitVec.add_assoc]
  congr 2
  unfold RFC1321.fOf
  generalize i / 16 = d at *
  interval_cases d
  · simp only [RFC1321.F]; rw [lo_add hw]; simp [lo, BitVec.setWidth_or, BitVec.setWidth_and, BitVec.setWidth_not hw]
  · simp only [RFC1321.G]; rw [lo_add hw]; simp [lo, BitVec.setWidth_or, BitVec.setWidth_and, BitVec.setWidth_not hw]
  · simp only [RFC1321.H]; rw [lo_add hw]; simp [lo, BitVec.setWidth_xor]
  · simp only [RFC1321.I]; rw [lo_add hw]; simp [lo, BitVec.setWidth_or, BitVec.setWidth_xor, BitVec.setWidth_not hw]

theorem rounds_lo (hw : 32 ≤ w) (x : Nat → BitVec w) (X : Nat → BitVec 32) (hx : ∀ k, lo (x k) = X k)
    (l : List Nat) (hl : ∀ i ∈ l, i < 64) : ∀ q : Sig w, loS (l.foldl (round x) q) = l.foldl (RFC1321.step X) (loS q) := by
  induction l with
  | nil => intro q; rfl
  | cons i l ih =>
    intro q
    rw [List.foldl_cons, List.foldl_cons, ih (fun j hj => hl j (by simp [hj])), round_lo hw x X hx q i (hl i (by simp))]

theorem loS_upS (hw : 32 ≤ w) (q : RFC1321.State) : loS (upS w q) = q := by
  unfold loS upS
  simp only [lo_up hw]

theorem doblock_up (hw : 32 ≤ w) (q : RFC1321.State) (data : Nat → Byte) :
    doblock (upS w q) data = upS w (RFC1321.block q data) := by
  unfold doblock RFC1321.block
  have hx : ∀ k, lo (encodeWord w data k) = RFC1321.le32 (data (4 * k)) (data (4 * k + 1)) (data (4 * k + 2)) (data (4 * k + 3)) := by
    intro k
    unfold encodeWord
    rw [lo_up hw]
    rfl
  have h := rounds_lo hw (encodeWord w data) _ hx (List.range 64) (by simp) (upS w q)
  rw [loS_upS hw] at h
  have h0 := congrArg RFC1321.State.a h
  have h1 := congrArg RFC1321.State.b h
  have h2 := congrArg RFC1321.State.c h
  have h3 := congrArg RFC1321.State.d h
  simp only [loS] at h0 h1 h2 h3
  simp only [and_msk hw, upS, lo_add hw, lo_up hw]
  simp only [upS] at h0 h1 h2 h3
  rw [h0, h1, h2, h3]

/-- what the context holds after the bytes `bs` -/
structure Inv (p : Ctx w) (bs : List Byte) : Prop where
  l : p.l = BitVec.ofNat 32 bs.length
  s : p.s = upS w (RFC1321.blocks bs)
  c : ∀ i < bs.length % 64, p.c i = bs.getD (64 * (bs.length / 64) + i) 0

theorem blocks_congr (f g : RFC1321.State → Nat → RFC1321.State) (l : List Nat) (h : ∀ q, ∀ j ∈ l, f q j = g q j) :
    ∀ q, l.foldl f q = l.foldl g q := by
  induction l with
  | nil => intro q; rfl
  | cons a l ih =>
    intro q
    rw [List.foldl_cons, List.foldl_cons, h q a (by simp)]
    exact ih (fun q j hj => h q j (by simp [hj])) _

theorem block_congr (q : RFC1321.State) (M N : Nat → Byte) (h : ∀ i < 64, M i = N i) : RFC1321.block q M = RFC1321.block q N := by
  unfold RFC1321.block
  have : (List.range 64).foldl (RFC1321.step fun k => RFC1321.le32 (M (4 * k)) (M (4 * k + 1)) (M (4 * k + 2)) (M (4 * k + 3))) q =
     (List.range 64).foldl (RFC1321.step fun k => RFC1321.le32 (N (4 * k)) (N (4 * k + 1)) (N (4 * k + 2)) (N (4 * k + 3))) q := by
    apply blocks_congr
    intro q j hj
    have hk : RFC1321.kOf j < 16 := by
      unfold RFC1321.kOf; split <;> omega
    unfold RFC1321.step
    simp only [RFC1321.State.mk.injEq, true_and, and_true]
    rw [h _ (by omega), h _ (by omega), h _ (by omega), h _ (by omega)]
  simp only [this]

theorem blocks_append_of_lt (bs : List Byte) (ch : Byte) (h : (bs.length + 1) % 64 ≠ 0) :
    RFC1321.blocks (bs ++ [ch]) = RFC1321.blocks bs := by
  unfold RFC1321.blocks
  have e : (bs ++ [ch]).length / 64 = bs.length / 64 := by simp; omega
  rw [e]
  apply blocks_congr
  intro q j hj
  apply block_congr
  intro i hi
  have := List.mem_range.1 hj
  rw [List.getD_append _ _ _ _ (by omega)]

theorem blocks_append_of_eq (bs : List Byte) (ch : Byte) (h : (bs.length + 1) % 64 = 0) :
    RFC1321.blocks (bs ++ [ch]) = RFC1321.block (RFC1321.blocks bs) (fun i => (bs ++ [ch]).getD (64 * (bs.length / 64) + i) 0) := by
  unfold RFC1321.blocks
  have e : (bs ++ [ch]).length / 64 = bs.length / 64 + 1 := by simp; omega
  rw [e, List.range_succ, List.foldl_append, List.foldl_cons, List.foldl_nil]
  refine congrArg (fun q => RFC1321.block q _) ?_
  apply blocks_congr
  intro q j hj
  apply block_congr
  intro i hi
  have := List.mem_range.1 hj
  rw [List.getD_append _ _ _ _ (by omega)]

theorem putc_inv (hw : 32 ≤ w) {p : Ctx w} {bs : List Byte} (h : Inv p bs) (ch : Byte) : Inv (putc p ch) (bs ++ [ch]) := by
  have hl64 : p.l.toNat % 64 = bs.length % 64 := by
    rw [h.l, BitVec.toNat_ofNat]; omega
  have hl' : (p.l + 1) = BitVec.ofNat 32 (bs.length + 1) := by
    rw [h.l, BitVec.ofNat_add]; rfl
  have hl64' : (p.l + 1).toNat % 64 = (bs.length + 1) % 64 := by
    rw [hl', BitVec.toNat_ofNat]; omega
  have hc : ∀ i < bs.length % 64 + 1, (if i = bs.length % 64 then ch else p.c i) = (bs ++ [ch]).getD (64 * (bs.length / 64) + i) 0 := by
    intro i hi
    split
    · rename_i he
      rw [List.getD_append_right _ _ _ _ (by omega)]
      have : 64 * (bs.length / 64) + i - bs.length = 0 := by omega
      rw [this]; rfl
    · rw [h.c i (by omega), List.getD_append _ _ _ _ (by omega)]
  unfold putc
  simp only [hl64, hl64']
  split
  · rename_i he
    refine ⟨by rw [List.length_append]; exact hl', ?_, ?_⟩
    · rw [h.s, doblock_up hw, blocks_append_of_eq _ _ he]
      refine congrArg (upS w) ?_
      apply block_congr
      intro i hi
      exact hc i (by omega)
    · intro i hi
      simp at hi; omega
  · rename_i he
    refine ⟨by rw [List.length_append]; exact hl', ?_, ?_⟩
    · rw [h.s, blocks_append_of_lt _ _ he]
    · intro i hi
      have e1 : (bs ++ [ch]).length % 64 = bs.length % 64 + 1 := by simp; omega
      have e2 : (bs ++ [ch]).length / 64 = bs.length / 64 := by simp; omega
      rw [e1] at hi
      rw [e2]
      exact hc i hi

theorem begin_inv (hw : 32 ≤ w) (junk : Nat → Byte) : Inv (begin w junk) [] := by
  refine ⟨rfl, ?_, by simp⟩
  simp only [begin, RFC1321.blocks, RFC1321.init, upS]
  have : ∀ n, n < 2 ^ 32 → BitVec.ofNat w n = (BitVec.ofNat 32 n).setWidth w := by
    intro n hn
    apply BitVec.eq_of_toNat_eq
    simp only [BitVec.toNat_ofNat, BitVec.toNat_setWidth]
    rw [Nat.mod_eq_of_lt hn]
  simp only [List.length_nil, Nat.zero_div, List.range_zero, List.foldl_nil]
  rw [this _ (by norm_num), this _ (by norm_num), this _ (by norm_num), this _ (by norm_num)]
  rfl

theorem putb_inv (hw : 32 ≤ w) (d : List Byte) : ∀ {p : Ctx w} {bs : List Byte}, Inv p bs → Inv (putb p d) (bs ++ d) := by
  induction d with
  | nil => intro p bs h; simpa [putb] using h
  | cons a d ih =>
    intro p bs h
    have := ih (putc_inv hw h a)
    simpa [putb] using this

theorem puts_eq (p : Ctx w) (s : List Byte) : puts p s = putb p (s ++ [0]) := by
  induction s generalizing p with
  | nil => rfl
  | cons c s ih => simp only [puts, ih]; rfl

theorem padLoop_inv (hw : 32 ≤ w) (k : Nat) : ∀ {p : Ctx w} {bs : List Byte}, Inv p bs → (120 - bs.length % 64) % 64 = k →
    ∃ p', padLoop p = some p' ∧ Inv p' (bs ++ List.replicate k 0) := by
  induction k with
  | zero =>
    intro p bs h hk
    have hl64 : p.l.toNat % 64 = bs.length % 64 := by rw [h.l, BitVec.toNat_ofNat]; omega
    refine ⟨p, ?_, by simpa using h⟩
    rw [padLoop, if_neg (by omega)]
  | succ k ih =>
    intro p bs h hk
    have hl64 : p.l.toNat % 64 = bs.length % 64 := by rw [h.l, BitVec.toNat_ofNat]; omega
    obtain ⟨p', h1, h2⟩ := ih (putc_inv hw h 0x00) (by simp; omega)
    refine ⟨p', ?_, ?_⟩
    · rw [padLoop, if_pos (by omega), h1]
    · rw [List.replicate_succ]
      simpa using h2

theorem putLen_inv (hw : 32 ≤ w) (k : Nat) : ∀ {p : Ctx w} {bs : List Byte} (l : BitVec 32), Inv p bs →
    Inv (putLen p l k) (bs ++ (List.range k).map fun i => BitVec.ofNat 8 (l.toNat / 256 ^ i)) := by
  induction k with
  | zero => intro p bs l h; simpa [putLen] using h
  | succ k ih =>
    intro p bs l h
    have h1 := ih (l >>> 8) (putc_inv hw h ((l &&& 0xFF).setWidth 8))
    rw [List.range_succ_eq_map, List.map_cons, List.map_map]
    rw [putLen]
    have e0 : (l &&& 0xFF).setWidth 8 = BitVec.ofNat 8 (l.toNat / 256 ^ 0) := by
      apply BitVec.eq_of_toNat_eq
      simp only [BitVec.toNat_setWidth, BitVec.toNat_and, BitVec.toNat_ofNat, pow_zero, Nat.div_one]
      rw [show BitVec.toNat (0xFF : BitVec 32) = 2 ^ 8 - 1 from rfl, Nat.and_two_pow_sub_one_eq_mod]
      omega
    have e1 : (fun i => BitVec.ofNat 8 ((l >>> 8).toNat / 256 ^ i)) = ((fun i => BitVec.ofNat 8 (l.toNat / 256 ^ i)) ∘ Nat.succ) := by
      funext i
      simp only [Function.comp, BitVec.toNat_ushiftRight, Nat.shiftRight_eq_div_pow, Nat.succ_eq_add_one]
      rw [Nat.div_div_eq_div_mul, pow_succ 256 i, Nat.mul_comm (256 ^ i)]
    rw [e0, e1] at h1
    rw [e0]
    simpa [List.append_assoc] using h1

theorem end_spec (hw : 32 ≤ w) {p : Ctx w} {bs : List Byte} (h : Inv p bs) (hlen : bs.length < 2 ^ 29) :
    ∃ p', «end» p = some p' ∧ p'.s = upS w (RFC1321.md5 bs) := by
  obtain ⟨p1, h1, h2⟩ := padLoop_inv hw _ (putc_inv hw h 0x80) rfl
  have hl : (8 * p.l).toNat = 8 * bs.length := by
    rw [h.l, BitVec.toNat_mul, BitVec.toNat_ofNat]
    rw [show BitVec.toNat (8 : BitVec 32) = 8 from rfl]
    norm_num at hlen ⊢
    omega
  have h3 := putLen_inv hw 8 (8 * p.l) h2
  refine ⟨putLen p1 (8 * p.l) 8, ?_, ?_⟩
  · unfold «end»
    simp only [h1, Option.bind_eq_bind, Option.bind_some]
    rfl
  · rw [h3.s]
    refine congrArg (upS w) ?_
    unfold RFC1321.md5 RFC1321.pad
    rw [hl]
    have e1 : (120 - (bs ++ [(0x80 : Byte)]).length % 64) % 64 = (119 - bs.length % 64) % 64 := by simp; omega
    have e2 : 8 * bs.length % 2 ^ 64 = 8 * bs.length := Nat.mod_eq_of_lt (by norm_num at hlen ⊢; omega)
    rw [e1, e2]

end FFTW.Md5
