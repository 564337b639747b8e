import Verif.Proofs.Tr3Base

/-!
# rdft/vrank3-transpose.c: the gcd algorithm
-/

namespace FFTW.RdftS
open Tensor Spec DftS

variable [CLib]

omit [CLib] in
theorem gcdC_eq : ∀ (b a : ℕ), 0 < b → gcdC a b = Nat.gcd a b := by
  intro b
  induction b using Nat.strong_induction_on with
  | _ b ih =>
    intro a hb
    rw [gcdC]
    rw [dif_neg (by omega)]
    split
    · rename_i h
      exact (Nat.gcd_eq_right (Nat.dvd_of_mod_eq_zero h)).symm
    · rename_i h
      rw [ih (a % b) (Nat.mod_lt _ hb) b (by omega), Nat.gcd_comm b, ← Nat.gcd_rec, Nat.gcd_comm]

/-- the vector dimensions of a transposition of `c`-tuples -/
def T3 (n m c : ℕ) : List Dim := [⟨n, ((m * c : ℕ) : ℤ), ((c : ℕ) : ℤ)⟩, ⟨m, ((c : ℕ) : ℤ), ((n * c : ℕ) : ℤ)⟩, ⟨c, 1, 1⟩]

omit [CLib] in
theorem G3_in (n m c : ℕ) : G3 n (m * c) m c c := G3.of_le (le_refl _) (le_refl _)
omit [CLib] in
theorem G3_out (n m c : ℕ) : G3 n c m (n * c) c := G3.of_ge (le_refl _) (le_refl _)

omit [CLib] in
theorem tr_in {n m c i j v : ℕ} : i * (m * c) + j * c + v = (i * m + j) * c + v := by ring
omit [CLib] in
theorem tr_out {n m c i j v : ℕ} : i * c + j * (n * c) + v = (j * n + i) * c + v := by ring

omit [CLib] in
theorem tr_lt {n m c i j v : ℕ} (hi : i < n) (hj : j < m) (hv : v < c) : (i * m + j) * c + v < n * m * c := lt_radix (lt_radix hi hj) hv

omit [CLib] in
theorem trn_lt {n m c w : ℕ} (h : w < n * m * c) : trn n m c w < n * m * c := by
  rw [Nat.mul_comm n m] at h
  obtain ⟨i, j, v, hi, hj, hv, rfl⟩ := tr_ind h
  rw [trn_mk hi hv]; exact tr_lt hi hj hv

omit [CLib] in
/-- transposition into a buffer, and back -/
theorem block_seg {n m c : ℕ} {nd : Bool} {f : Ptr → Ptr → State → State} (hG : GOK rK [] (some (T3 n m c)) 0 0 false nd f) {buf : Ptr} :
    SegB buf.blk (n * m * c) (trn n m c) (fun p st => memcpy (n * m * c) buf p (f p buf st)) := by
  intro p st hp hB hpB
  obtain ⟨h1, h2, h3⟩ := child3 hG (G3_in n m c) (G3_out n m c) (by simp) (I := p) (O := buf) (st := st) hp hB (by simp) (fun _ => hpB)
  refine ⟨by rw [memcpy_next]; exact h1, ?_, ?_⟩
  · intro w hw
    rw [memcpy_in hw]
    have hw' := hw
    rw [Nat.mul_comm n m] at hw'
    obtain ⟨i, j, v, hi, hj, hv, rfl⟩ := tr_ind hw'
    rw [trn_mk hi hv]
    have := h2 i hi j hj v hv
    rw [tr_out, tr_in (n := n)] at this
    · exact this
    · exact 0
  · intro q hq hqB hn
    rw [memcpy_out hn, h3 q hq]
    · intro x hx y hy v hv e
      exact hqB (by rw [e]; rfl)
    · intro x hx y hy v hv
      rw [tr_in (n := n)]
      exact hn _ (tr_lt hx hy hv)

omit [CLib] in
/-- transposition in place by a child plan -/
theorem inplace_seg {n m c : ℕ} {nd : Bool} {f : Ptr → Ptr → State → State} (hG : GOK rK [] (some (T3 n m c)) 0 0 true nd f)
    (heq : ins (locT ℝ 0 0 ([] : List (Dim × RKind)) (some (T3 n m c))) = outs (locT ℝ 0 0 ([] : List (Dim × RKind)) (some (T3 n m c)))) :
    Seg (n * m * c) (trn n m c) (fun p st => f p p st) := by
  intro p st hp
  obtain ⟨h1, h2, h3⟩ := child3 hG (G3_in n m c) (G3_out n m c) (fun _ => heq) (I := p) (O := p) (st := st) hp hp (fun _ => rfl) (by simp)
  refine ⟨h1, ?_, ?_⟩
  · intro w hw
    rw [Nat.mul_comm n m] at hw
    obtain ⟨i, j, v, hi, hj, hv, rfl⟩ := tr_ind hw
    rw [trn_mk hi hv]
    have := h2 i hi j hj v hv
    rw [tr_out, tr_in (n := n)] at this
    · exact this
    · exact 0
  · intro q hq hn
    refine h3 q hq ?_ ?_
    · intro x hx y hy v hv
      rw [tr_out (m := 0), show n * m * c = m * n * c by ring] at *
      exact hn _ (tr_lt hy hx hv)
    · intro x hx y hy v hv
      rw [tr_in (n := n)]
      exact hn _ (tr_lt hx hy hv)

omit [CLib] in
/-- a segment operation that transposes is what the problem asks for -/
theorem GOK_seg {n m c : ℕ} {nd : Bool} {f : Ptr → State → State} (h : Seg (n * m * c) (trn n m c) f) :
    GOK rK [] (some (T3 n m c)) 0 0 true nd (fun I _ => f I) := by
  apply GOK_of_copies
  intro _ I O st hc
  obtain rfl := hc.same rfl
  obtain ⟨h1, h2, h3⟩ := h I st hc.blkI
  have hm : mapL I I (T3 n m c) = Spec.map2d I I n ((m * c : ℕ) : ℤ) ((c : ℕ) : ℤ) m ((c : ℕ) : ℤ) ((n * c : ℕ) : ℤ) c := mapL_three I I _ _ c
  rw [hm]
  have e2 : ∀ i j v : ℕ, I + ((i : ℤ) * ((c : ℕ) : ℤ) + (j : ℤ) * ((n * c : ℕ) : ℤ) + (v : ℤ)) = I + (((j * n + i) * c + v : ℕ) : ℤ) := by
    intro i j v; rw [ptr_add_right_inj]; push_cast; ring
  have e1 : ∀ i j v : ℕ, I + ((i : ℤ) * ((m * c : ℕ) : ℤ) + (j : ℤ) * ((c : ℕ) : ℤ) + (v : ℤ)) = I + (((i * m + j) * c + v : ℕ) : ℤ) := by
    intro i j v; rw [ptr_add_right_inj]; push_cast; ring
  refine ⟨h1, ?_, ?_⟩
  · rintro e ⟨i, j, v, hi, hj, hv, rfl⟩
    simp only
    rw [e1, e2, h2 _ (by rw [Nat.mul_comm n m]; exact tr_lt hj hi hv), trn_mk hi hv]
  · intro q hq hn
    refine h3 q hq fun w hw e => ?_
    rw [Nat.mul_comm n m] at hw
    obtain ⟨i, j, v, hi, hj, hv, rfl⟩ := tr_ind hw
    exact hn _ ⟨i, j, v, hi, hj, hv, rfl⟩ (by simp only; rw [e2]; exact e)

omit [CLib] in
/-- the three steps together, rdft/vrank3-transpose.c:193-222 -/
theorem gcd_steps {n m d vl w : ℕ} (hw : w < n * d * (m * d) * vl) :
    trn (n * d) (m * d) vl w =
      (let E := n * m * d * vl
       let w3 := w / E * E + trn (d * n) m vl (w % E)
       let w2 := trn d d (n * m * vl) w3
       w2 / E * E + trn n d (m * vl) (w2 % E)) := by
  obtain ⟨I', J', v, hI, hJ, hv, rfl⟩ := tr_ind (show w < m * d * (n * d) * vl by rw [Nat.mul_comm (m * d)]; exact hw)
  rw [trn_mk hI hv]
  rw [Nat.mul_comm n d] at hI
  rw [Nat.mul_comm m d] at hJ
  obtain ⟨i, x, hi, hx, rfl⟩ := radix_split hI
  obtain ⟨j, y, hj, hy, rfl⟩ := radix_split hJ
  simp only
  have a1 : (y * (d * n) + (i * n + x)) * vl + v < n * m * d * vl := by
    have : (y * (d * n) + (i * n + x)) * vl + v < m * (d * n) * vl := tr_lt hy (lt_radix hi hx) hv
    calc _ < _ := this
      _ = _ := by ring
  have q1 : ((j * m + y) * (n * d) + (i * n + x)) * vl + v = j * (n * m * d * vl) + ((y * (d * n) + (i * n + x)) * vl + v) := by ring
  have d1 : ∀ a b E : ℕ, b < E → (a * E + b) / E = a := fun a b E h => by rw [Nat.add_comm, Nat.add_mul_div_right _ _ (by omega), Nat.div_eq_of_lt h]; omega
  have d2 : ∀ a b E : ℕ, b < E → (a * E + b) % E = b := fun a b E h => by rw [Nat.add_comm, Nat.add_mul_mod_self_right, Nat.mod_eq_of_lt h]
  rw [q1, d1 _ _ _ a1, d2 _ _ _ a1, trn_mk (lt_radix hi hx) hv]
  have a2 : (x * m + y) * vl + v < n * m * vl := tr_lt hx hy hv
  have q2 : j * (n * m * d * vl) + (((i * n + x) * m + y) * vl + v) = (j * d + i) * (n * m * vl) + ((x * m + y) * vl + v) := by ring
  rw [q2, trn_mk hi a2]
  have a3 : (j * n + x) * (m * vl) + (y * vl + v) < n * m * d * vl := by
    have : (j * n + x) * (m * vl) + (y * vl + v) < d * n * (m * vl) := tr_lt hj hx (lt_radix hy hv)
    calc _ < _ := this
      _ = _ := by ring
  have q3 : (i * d + j) * (n * m * vl) + ((x * m + y) * vl + v) = i * (n * m * d * vl) + ((j * n + x) * (m * vl) + (y * vl + v)) := by ring
  rw [q3, d1 _ _ _ a3, d2 _ _ _ a3, trn_mk hx (lt_radix hy hv)]
  ring

omit [CLib] in
theorem applyGcd_seg {n m d vl : ℕ} {nd1 nd2 nd3 : Bool} {cld1 cld2 cld3 : Plan}
    (h1 : n > 1 → GOK rK [] (some (T3 n d (m * vl))) 0 0 false nd1 cld1.rdftApply)
    (h2 : GOK rK [] (some (T3 d d (n * m * vl))) 0 0 true nd2 cld2.rdftApply)
    (h2e : ins (locT ℝ 0 0 ([] : List (Dim × RKind)) (some (T3 d d (n * m * vl)))) = outs (locT ℝ 0 0 ([] : List (Dim × RKind)) (some (T3 d d (n * m * vl)))))
    (h3 : m > 1 → GOK rK [] (some (T3 (d * n) m vl)) 0 0 false nd3 cld3.rdftApply) (hn : 0 < n) (hm : 0 < m) (O : Ptr) :
    Seg (n * d * (m * d) * vl) (trn (n * d) (m * d) vl) (fun I => applyGcd n m d vl cld1 cld2 cld3 I O) := by
  refine SegB.withBuf (f := fun buf I st => _) fun buf => ?_
  have E1 : n * m * d * vl = n * d * (m * vl) := by ring
  have E3 : n * m * d * vl = d * n * m * vl := by ring
  have EL : n * d * (m * d) * vl = d * (n * m * d * vl) := by ring
  have s1 : SegB buf.blk (d * (n * m * d * vl)) (fun w => w / (n * m * d * vl) * (n * m * d * vl) + trn n d (m * vl) (w % (n * m * d * vl)))
      (fun I st => if n > 1 then blockLoop d (n * m * d * vl) cld1 buf I st else st) := by
    split
    · rename_i hn1
      have := (block_seg (h1 hn1) (buf := buf))
      rw [← E1] at this
      exact this.blocks (fun w hw => by rw [E1] at hw ⊢; exact trn_lt hw) d
    · obtain rfl : n = 1 := by omega
      refine (SegB.id _ _).congr fun w hw => ?_
      obtain ⟨i, w, hi, hw2, rfl⟩ := radix_split hw
      clear hw; rename' hw2 => hw
      rw [radix_div hw, radix_mod hw, Nat.add_left_cancel_iff]
      rw [E1] at hw
      obtain ⟨i', j, v, hi', hj, hv, rfl⟩ := tr_ind (show w < d * 1 * (m * vl) by rw [Nat.mul_comm d]; exact hw)
      rw [trn_mk hi' hv]
      obtain rfl : i' = 0 := by omega
      ring
  have s2 := (inplace_seg h2 h2e).toB (B := buf.blk)
  have s3 : SegB buf.blk (d * (n * m * d * vl)) (fun w => w / (n * m * d * vl) * (n * m * d * vl) + trn (d * n) m vl (w % (n * m * d * vl)))
      (fun I st => if m > 1 then blockLoop d (n * m * d * vl) cld3 buf I st else st) := by
    split
    · rename_i hn1
      have := (block_seg (h3 hn1) (buf := buf))
      rw [← E3] at this
      exact this.blocks (fun w hw => by rw [E3] at hw ⊢; exact trn_lt hw) d
    · obtain rfl : m = 1 := by omega
      refine (SegB.id _ _).congr fun w hw => ?_
      obtain ⟨i, w, hi, hw2, rfl⟩ := radix_split hw
      clear hw; rename' hw2 => hw
      rw [radix_div hw, radix_mod hw, Nat.add_left_cancel_iff]
      rw [E3] at hw
      obtain ⟨i', j, v, hi', hj, hv, rfl⟩ := tr_ind (show w < 1 * (d * n) * vl by rw [Nat.mul_comm 1]; exact hw)
      rw [trn_mk hi' hv]
      obtain rfl : j = 0 := by omega
      ring
  have L2 : d * d * (n * m * vl) = d * (n * m * d * vl) := by ring
  rw [L2] at s2
  have blkLt : ∀ g : ℕ → ℕ, (∀ w < n * m * d * vl, g w < n * m * d * vl) → ∀ w < d * (n * m * d * vl),
      w / (n * m * d * vl) * (n * m * d * vl) + g (w % (n * m * d * vl)) < d * (n * m * d * vl) := by
    intro g hg w hw
    obtain ⟨i, w, hi, hw2, rfl⟩ := radix_split hw
    clear hw; rename' hw2 => hw
    have e1 : (i * (n * m * d * vl) + w) / (n * m * d * vl) = i := by rw [Nat.add_comm, Nat.add_mul_div_right _ _ (by omega), Nat.div_eq_of_lt hw]; omega
    have e2 : (i * (n * m * d * vl) + w) % (n * m * d * vl) = w := by rw [Nat.add_comm, Nat.add_mul_mod_self_right, Nat.mod_eq_of_lt hw]
    rw [e1, e2]
    exact lt_radix hi (hg w hw)
  have c := (s1.comp s2 (fun w hw => by rw [← L2] at hw ⊢; exact trn_lt hw)).comp s3 (blkLt _ fun w hw => by rw [E3] at hw ⊢; exact trn_lt hw)
  rw [EL]
  refine c.congr fun w hw => ?_
  rw [← EL] at hw
  exact gcd_steps hw

end FFTW.RdftS
