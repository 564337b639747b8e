import Verif.Proofs.Hc2cDirect
import Verif.Proofs.Rdft2Buf
import Verif.Proofs.Rdft2Rank

/-! # rdft/ct-hc2c.c computes the transform -/

namespace FFTW.Rdft2S
open Tensor Spec DftS RdftS

local notation "cj" => starRingEnd ℂ

theorem zig_split {r q e : ℕ} (hr : r % 2 = 0) (he : e < 2) (i : ℕ) (ρ s : ℤ) :
    zig ρ s (i * r + (2 * q + e)) = (e : ℤ) * ρ + ((i : ℤ) * ((r / 2 : ℕ) : ℤ) + (q : ℤ)) * s := by
  have h : i * r = 2 * (i * (r / 2)) := by
    obtain ⟨k, rfl⟩ : ∃ k, r = 2 * k := ⟨r / 2, by omega⟩
    rw [show 2 * k / 2 = k by omega]; ring
  rw [h, show 2 * (i * (r / 2)) + (2 * q + e) = 2 * (i * (r / 2) + q) + e by ring, zig_add _ _ _ _ he]
  push_cast; ring

theorem offs_time (r m v : ℕ) (ρ s vs : ℤ) :
    offs [(m, ((r / 2 : ℕ) : ℤ) * s), (2, ρ), (r / 2, s), (v, vs)] = offs [(2, ρ), (v, vs), (r / 2 * m, s)] := by
  have := offs_merge m (r / 2) s [(2, ρ), (v, vs)]
  rw [nsmul_eq_mul] at this
  rw [offs_perm (List.Perm.cons _ (List.Perm.swap _ _ _)), this, mul_comm m]
  exact offs_perm ((List.Perm.swap _ _ _).trans (List.Perm.cons _ (List.Perm.swap _ _ _)))

theorem offs_freq (r m v : ℕ) (δ s vs : ℤ) :
    offs [(m, s), (2, δ), (r / 2, (m : ℤ) * s), (v, vs)] = offs [(2, δ), (v, vs), (r / 2 * m, s)] := by
  have := offs_merge (r / 2) m s [(2, δ), (v, vs)]
  rw [nsmul_eq_mul] at this
  have p : List.Perm [(m, s), (2, δ), (r / 2, (m : ℤ) * s), (v, vs)] [(r / 2, (m : ℤ) * s), (m, s), (2, δ), (v, vs)] :=
    (List.Perm.cons _ (List.Perm.swap _ _ _)).trans (List.Perm.swap _ _ _)
  rw [offs_perm p, this]
  exact offs_perm ((List.Perm.swap _ _ _).trans (List.Perm.cons _ (List.Perm.swap _ _ _)))

theorem offs_time' (r m v : ℕ) (ρ s vs : ℤ) :
    offs [(2, ρ), (m, ((r / 2 : ℕ) : ℤ) * s), (r / 2, s), (v, vs)] = offs [(2, ρ), (v, vs), (r / 2 * m, s)] := by
  rw [offs_perm (List.Perm.swap _ _ _), offs_time]

theorem offs_freq' (r m v : ℕ) (δ s vs : ℤ) :
    offs [(2, δ), (m, s), (r / 2, (m : ℤ) * s), (v, vs)] = offs [(2, δ), (v, vs), (r / 2 * m, s)] := by
  rw [offs_perm (List.Perm.swap _ _ _), offs_freq]

/-- when the child of a Cooley-Tukey step may be run -/
structure ChildPre (TI TO : Multiset ℤ) (inpl nd : Bool) (I O : Ptr) (st : State) : Prop where
  out : TO.Nodup
  inp : nd = false → TI.Nodup
  blkI : I.blk < st.next
  blkO : O.blk < st.next
  same : inpl = true → I = O
  disj : inpl = false → ∀ a ∈ TI, ∀ b ∈ TO, I + a ≠ O + b

/-- what the child of a Cooley-Tukey step for a real-to-complex transform does: the transforms of the samples `b, b + r, ...` -/
def ChildF (via : Hc2cKind) (r m v : ℕ) (ρ is ivs δ os ovs : ℤ) (inpl nd : Bool) (f : Ptr → Ptr → State → State) : Prop :=
  ∀ I O st, ChildPre (offs [(2, ρ), (v, ivs), (r / 2 * m, is)]) (offs [(2, δ), (v, ovs), (r / 2 * m, os)]) inpl nd I O st →
    Frame st (f I O st) (fun q => (∃ b ∈ offs [(2, δ), (v, ovs), (r / 2 * m, os)], q = O + b) ∨
      (nd = false ∧ ∃ a ∈ offs [(2, ρ), (v, ivs), (r / 2 * m, is)], q = I + a)) ∧
    ∀ j < v, ∀ b < r, ∀ k < m, hc2cRow via m (fun e x => (f I O st).mem (O + ((e : ℤ) * δ + (x : ℤ) * os + (j : ℤ) * ovs))) b k =
      ∑ i ∈ Finset.range m, ω m ^ (i * k) * ((st.mem (I + ((j : ℤ) * ivs + zig ρ is (i * r + b))) : ℝ) : ℂ)

variable [CLib]

omit [CLib] in
theorem childF_real {r m v : ℕ} {ρ is ivs δ os ovs : ℤ} {inpl nd : Bool} {f : Ptr → Ptr → State → State} (hr : r % 2 = 0)
    (h : GOK rK [(⟨m, ((r / 2 : ℕ) : ℤ) * is, os⟩, .R2HC00)] (some [⟨2, ρ, δ⟩, ⟨r / 2, is, (m : ℤ) * os⟩, ⟨v, ivs, ovs⟩]) 0 0 inpl nd f)
    (he : inpl = true → ins (locT ℝ 0 0 [((⟨m, ((r / 2 : ℕ) : ℤ) * is, os⟩ : Dim), RKind.R2HC00)] (some [⟨2, ρ, δ⟩, ⟨r / 2, is, (m : ℤ) * os⟩, ⟨v, ivs, ovs⟩])) =
      outs (locT ℝ 0 0 [((⟨m, ((r / 2 : ℕ) : ℤ) * is, os⟩ : Dim), RKind.R2HC00)] (some [⟨2, ρ, δ⟩, ⟨r / 2, is, (m : ℤ) * os⟩, ⟨v, ivs, ovs⟩]))) :
    ChildF .viaRdft r m v ρ is ivs δ os ovs inpl nd f := by
  intro I O st hp
  have ei : ins (locT ℝ 0 0 [((⟨m, ((r / 2 : ℕ) : ℤ) * is, os⟩ : Dim), RKind.R2HC00)] (some [⟨2, ρ, δ⟩, ⟨r / 2, is, (m : ℤ) * os⟩, ⟨v, ivs, ovs⟩])) =
      offs [(2, ρ), (v, ivs), (r / 2 * m, is)] := by rw [ins_locT_real]; exact offs_time r m v ρ is ivs
  have eo : outs (locT ℝ 0 0 [((⟨m, ((r / 2 : ℕ) : ℤ) * is, os⟩ : Dim), RKind.R2HC00)] (some [⟨2, ρ, δ⟩, ⟨r / 2, is, (m : ℤ) * os⟩, ⟨v, ivs, ovs⟩])) =
      offs [(2, δ), (v, ovs), (r / 2 * m, os)] := by rw [outs_locT_real]; exact offs_freq r m v δ os ovs
  obtain ⟨fr, hv⟩ := h ⟨by rw [eo]; exact hp.out, by rw [ei]; exact hp.inp, he, fun _ => rfl⟩ I O st
    ⟨hp.blkI, hp.blkO, hp.same, by rw [ei, eo]; exact hp.disj⟩
  refine ⟨fr.mono ?_, ?_⟩
  · intro q _ hq
    unfold Writable at hq
    rwa [ei, eo] at hq
  · intro j hj b hb k hk
    refine hc2cRow_viaRdft (r := r) _ (fun t => st.mem (I + ((j : ℤ) * ivs + zig ρ is t))) (b := b) ?_ hk
    intro l hl
    have hb2 : b % 2 < 2 := Nat.mod_lt _ (by norm_num)
    have hb1 : b / 2 < r / 2 := by omega
    have := hv [((⟨m, ((r / 2 : ℕ) : ℤ) * is, os⟩, .R2HC00), l)] ⟨rfl, by simpa using hl⟩
      (((b % 2 : ℕ) : ℤ) * ρ + (((b / 2 : ℕ) : ℤ) * is + (j : ℤ) * ivs), ((b % 2 : ℕ) : ℤ) * δ + (((b / 2 : ℕ) : ℤ) * ((m : ℤ) * os) + (j : ℤ) * ovs)) (by
        refine mem_pairs_cons.2 ⟨b % 2, hb2, (((b / 2 : ℕ) : ℤ) * is + (j : ℤ) * ivs, ((b / 2 : ℕ) : ℤ) * ((m : ℤ) * os) + (j : ℤ) * ovs), ?_, by simp⟩
        refine mem_pairs_cons.2 ⟨b / 2, hb1, ((j : ℤ) * ivs, (j : ℤ) * ovs), mem_pairs_cons.2 ⟨j, hj, 0, by simp [pairs, offs], by simp⟩, by simp⟩)
    rw [gOut_cons, gOut_nil] at this
    simp only [gSum, val_r] at this
    rw [show ((b % 2 : ℕ) : ℤ) * δ + ((b / 2 * m + l : ℕ) : ℤ) * os + (j : ℤ) * ovs =
      (l : ℤ) * os + 0 + (((b % 2 : ℕ) : ℤ) * δ + (((b / 2 : ℕ) : ℤ) * ((m : ℤ) * os) + (j : ℤ) * ovs)) by push_cast; ring, this]
    refine Finset.sum_congr rfl fun i _ => ?_
    congr 3
    rw [show i * r + b = i * r + (2 * (b / 2) + b % 2) by omega, zig_split hr hb2]
    ring

omit [CLib] in
theorem childF_dft {r m v : ℕ} {ρ is ivs δ os ovs : ℤ} {inpl nd : Bool} {f : Ptr → Ptr → State → State} (hr : r % 2 = 0) (hm : m ≠ 0)
    (h : GOK dftK (tag [⟨m, ((r / 2 : ℕ) : ℤ) * is, os⟩]) (some [⟨r / 2, is, (m : ℤ) * os⟩, ⟨v, ivs, ovs⟩]) ρ δ inpl nd f)
    (hd : inpl = true → ρ = δ)
    (he : inpl = true → ins (locT ℂ ρ δ (tag [⟨m, ((r / 2 : ℕ) : ℤ) * is, os⟩]) (some [⟨r / 2, is, (m : ℤ) * os⟩, ⟨v, ivs, ovs⟩])) =
      outs (locT ℂ ρ δ (tag [⟨m, ((r / 2 : ℕ) : ℤ) * is, os⟩]) (some [⟨r / 2, is, (m : ℤ) * os⟩, ⟨v, ivs, ovs⟩]))) :
    ChildF .viaDft r m v ρ is ivs δ os ovs inpl nd f := by
  intro I O st hp
  have ei : ins (locT ℂ ρ δ (tag [⟨m, ((r / 2 : ℕ) : ℤ) * is, os⟩]) (some [⟨r / 2, is, (m : ℤ) * os⟩, ⟨v, ivs, ovs⟩])) =
      offs [(2, ρ), (v, ivs), (r / 2 * m, is)] := offs_time' r m v ρ is ivs
  have eo : outs (locT ℂ ρ δ (tag [⟨m, ((r / 2 : ℕ) : ℤ) * is, os⟩]) (some [⟨r / 2, is, (m : ℤ) * os⟩, ⟨v, ivs, ovs⟩])) =
      offs [(2, δ), (v, ovs), (r / 2 * m, os)] := offs_freq' r m v δ os ovs
  obtain ⟨fr, hv⟩ := h ⟨by rw [eo]; exact hp.out, by rw [ei]; exact hp.inp, he, hd⟩ I O st
    ⟨hp.blkI, hp.blkO, hp.same, by rw [ei, eo]; exact hp.disj⟩
  refine ⟨fr.mono ?_, ?_⟩
  · intro q _ hq
    unfold Writable at hq
    rwa [ei, eo] at hq
  · intro j hj b hb k hk
    refine hc2cRow_viaDft hr hm _ (fun t => st.mem (I + ((j : ℤ) * ivs + zig ρ is t))) ?_ hb hk
    intro q hq l hl
    have := hv [((⟨m, ((r / 2 : ℕ) : ℤ) * is, os⟩, ()), l)] ⟨rfl, by simpa using hl⟩
      ((q : ℤ) * is + (j : ℤ) * ivs, (q : ℤ) * ((m : ℤ) * os) + (j : ℤ) * ovs) (by
        refine mem_pairs_cons.2 ⟨q, hq, ((j : ℤ) * ivs, (j : ℤ) * ovs), mem_pairs_cons.2 ⟨j, hj, 0, by simp [pairs, offs], by simp⟩, by simp⟩)
    rw [gOut_cons, gOut_nil] at this
    simp only [gSum, val_c] at this
    rw [show ((0 : ℕ) : ℤ) * δ + ((q * m + l : ℕ) : ℤ) * os + (j : ℤ) * ovs =
        (l : ℤ) * os + 0 + ((q : ℤ) * ((m : ℤ) * os) + (j : ℤ) * ovs) by push_cast; ring,
      show ((1 : ℕ) : ℤ) * δ + ((q * m + l : ℕ) : ℤ) * os + (j : ℤ) * ovs =
        δ + ((l : ℤ) * os + 0 + ((q : ℤ) * ((m : ℤ) * os) + (j : ℤ) * ovs)) by push_cast; ring, this]
    refine Finset.sum_congr rfl fun i _ => ?_
    have z0 : zig ρ is (i * r + 2 * q) = ((i : ℤ) * ((r / 2 : ℕ) : ℤ) + (q : ℤ)) * is := by
      have := zig_split (q := q) (e := 0) hr (by norm_num) i ρ is
      simpa using this
    have z1 : zig ρ is (i * r + (2 * q + 1)) = ρ + ((i : ℤ) * ((r / 2 : ℕ) : ℤ) + (q : ℤ)) * is := by
      have := zig_split (q := q) (e := 1) hr (by norm_num) i ρ is
      simpa using this
    rw [z0, z1]
    simp only [dftK]
    congr 1
    rw [show (i : ℤ) * (((r / 2 : ℕ) : ℤ) * is) + 0 + ((q : ℤ) * is + (j : ℤ) * ivs) = (j : ℤ) * ivs + ((i : ℤ) * ((r / 2 : ℕ) : ℤ) + (q : ℤ)) * is by ring,
      show ρ + ((j : ℤ) * ivs + ((i : ℤ) * ((r / 2 : ℕ) : ℤ) + (q : ℤ)) * is) = (j : ℤ) * ivs + (ρ + ((i : ℤ) * ((r / 2 : ℕ) : ℤ) + (q : ℤ)) * is) by ring]
    apply Complex.ext <;> simp

/-- what the child of a Cooley-Tukey step for a complex-to-real transform does: if its input holds the Hermitian spectra `G b`, then it computes the
samples `b, b + r, ...` -/
def ChildB (via : Hc2cKind) (r m v : ℕ) (δ is ivs ρ os ovs : ℤ) (inpl nd : Bool) (f : Ptr → Ptr → State → State) : Prop :=
  ∀ I O st, ChildPre (offs [(2, δ), (v, ivs), (r / 2 * m, is)]) (offs [(2, ρ), (v, ovs), (r / 2 * m, os)]) inpl nd I O st →
    Frame st (f I O st) (fun q => (∃ b ∈ offs [(2, ρ), (v, ovs), (r / 2 * m, os)], q = O + b) ∨
      (nd = false ∧ ∃ a ∈ offs [(2, δ), (v, ivs), (r / 2 * m, is)], q = I + a)) ∧
    ∀ (G : ℕ → ℕ → ℂ), (∀ b, (G b 0).im = 0 ∧ ∀ q, 0 < q → q < m → G b (m - q) = cj (G b q)) → ∀ j < v,
      (∀ e : ℕ, e < 2 → ∀ x : ℕ, x < r / 2 * m → st.mem (I + ((e : ℤ) * δ + (x : ℤ) * is + (j : ℤ) * ivs)) = match via with
        | .viaRdft => packHc m (G (2 * (x / m) + e)) (x % m)
        | .viaDft => part e (G (2 * (x / m)) (x % m) + Complex.I * G (2 * (x / m) + 1) (x % m))) →
      ∀ b < r, ∀ i < m, (f I O st).mem (O + ((j : ℤ) * ovs + zig ρ os (i * r + b))) = (∑ k ∈ Finset.range m, cj (ω m) ^ (k * i) * G b k).re

omit [CLib] in
theorem mul_row {r m q l : ℕ} (hq : q < r) (hl : l < m) : q * m + l < r * m := by
  calc q * m + l < q * m + m := by omega
    _ = (q + 1) * m := by ring
    _ ≤ r * m := Nat.mul_le_mul_right _ hq

omit [CLib] in
theorem childB_real {r m v : ℕ} {ρ is ivs δ os ovs : ℤ} {inpl nd : Bool} {f : Ptr → Ptr → State → State} (hr : r % 2 = 0) (hm : m ≠ 0)
    (h : GOK rK [(⟨m, is, ((r / 2 : ℕ) : ℤ) * os⟩, .HC2R00)] (some [⟨2, δ, ρ⟩, ⟨r / 2, (m : ℤ) * is, os⟩, ⟨v, ivs, ovs⟩]) 0 0 inpl nd f)
    (he : inpl = true → ins (locT ℝ 0 0 [((⟨m, is, ((r / 2 : ℕ) : ℤ) * os⟩ : Dim), RKind.HC2R00)] (some [⟨2, δ, ρ⟩, ⟨r / 2, (m : ℤ) * is, os⟩, ⟨v, ivs, ovs⟩])) =
      outs (locT ℝ 0 0 [((⟨m, is, ((r / 2 : ℕ) : ℤ) * os⟩ : Dim), RKind.HC2R00)] (some [⟨2, δ, ρ⟩, ⟨r / 2, (m : ℤ) * is, os⟩, ⟨v, ivs, ovs⟩]))) :
    ChildB .viaRdft r m v δ is ivs ρ os ovs inpl nd f := by
  intro I O st hp
  have ei : ins (locT ℝ 0 0 [((⟨m, is, ((r / 2 : ℕ) : ℤ) * os⟩ : Dim), RKind.HC2R00)] (some [⟨2, δ, ρ⟩, ⟨r / 2, (m : ℤ) * is, os⟩, ⟨v, ivs, ovs⟩])) =
      offs [(2, δ), (v, ivs), (r / 2 * m, is)] := by rw [ins_locT_real]; exact offs_freq r m v δ is ivs
  have eo : outs (locT ℝ 0 0 [((⟨m, is, ((r / 2 : ℕ) : ℤ) * os⟩ : Dim), RKind.HC2R00)] (some [⟨2, δ, ρ⟩, ⟨r / 2, (m : ℤ) * is, os⟩, ⟨v, ivs, ovs⟩])) =
      offs [(2, ρ), (v, ovs), (r / 2 * m, os)] := by rw [outs_locT_real]; exact offs_time r m v ρ os ovs
  obtain ⟨fr, hv⟩ := h ⟨by rw [eo]; exact hp.out, by rw [ei]; exact hp.inp, he, fun _ => rfl⟩ I O st
    ⟨hp.blkI, hp.blkO, hp.same, by rw [ei, eo]; exact hp.disj⟩
  refine ⟨fr.mono ?_, ?_⟩
  · intro q _ hq
    unfold Writable at hq
    rwa [ei, eo] at hq
  · intro G hG j hj hS b hb i hi
    have hb2 : b % 2 < 2 := Nat.mod_lt _ (by norm_num)
    have hb1 : b / 2 < r / 2 := by omega
    have := hv [((⟨m, is, ((r / 2 : ℕ) : ℤ) * os⟩, .HC2R00), i)] ⟨rfl, by simpa using hi⟩
      (((b % 2 : ℕ) : ℤ) * δ + (((b / 2 : ℕ) : ℤ) * ((m : ℤ) * is) + (j : ℤ) * ivs), ((b % 2 : ℕ) : ℤ) * ρ + (((b / 2 : ℕ) : ℤ) * os + (j : ℤ) * ovs)) (by
        refine mem_pairs_cons.2 ⟨b % 2, hb2, (((b / 2 : ℕ) : ℤ) * ((m : ℤ) * is) + (j : ℤ) * ivs, ((b / 2 : ℕ) : ℤ) * os + (j : ℤ) * ovs), ?_, by simp⟩
        refine mem_pairs_cons.2 ⟨b / 2, hb1, ((j : ℤ) * ivs, (j : ℤ) * ovs), mem_pairs_cons.2 ⟨j, hj, 0, by simp [pairs, offs], by simp⟩, by simp⟩)
    rw [gOut_cons, gOut_nil] at this
    simp only [gSum, val_r] at this
    rw [show i * r + b = i * r + (2 * (b / 2) + b % 2) by omega, zig_split hr hb2,
      show (j : ℤ) * ovs + (((b % 2 : ℕ) : ℤ) * ρ + ((i : ℤ) * ((r / 2 : ℕ) : ℤ) + ((b / 2 : ℕ) : ℤ)) * os) =
        (i : ℤ) * (((r / 2 : ℕ) : ℤ) * os) + 0 + (((b % 2 : ℕ) : ℤ) * ρ + (((b / 2 : ℕ) : ℤ) * os + (j : ℤ) * ovs)) by ring, this]
    have e1 : (∑ k ∈ Finset.range m, cj (ω m) ^ (k * i) * G b k) = ∑ k ∈ Finset.range m, cj (ω m) ^ (k * i) * unpackHc m (packHc m (G b)) k :=
      Finset.sum_congr rfl fun k hk => by rw [unpack_pack (hG b).1 (hG b).2 (Finset.mem_range.1 hk)]
    rw [e1, ← hc2r_unpack]
    refine Finset.sum_congr rfl fun l hl => ?_
    have hl := Finset.mem_range.1 hl
    have := hS (b % 2) hb2 (b / 2 * m + l) (mul_row hb1 hl)
    simp only [hc_mod (b / 2) hl, show (b / 2 * m + l) / m = b / 2 by
      rw [mul_comm, Nat.mul_add_div (by omega), Nat.div_eq_of_lt hl, add_zero]] at this
    rw [show 2 * (b / 2) + b % 2 = b by omega] at this
    rw [← this]
    congr 3
    push_cast; ring

omit [CLib] in
theorem childB_dft {r m v : ℕ} {ρ is ivs δ os ovs : ℤ} {inpl nd : Bool} {f : Ptr → Ptr → State → State} (hr : r % 2 = 0) (hm : m ≠ 0)
    (h : GOK dftK (tag [⟨m, is, ((r / 2 : ℕ) : ℤ) * os⟩]) (some [⟨r / 2, (m : ℤ) * is, os⟩, ⟨v, ivs, ovs⟩]) (-δ) (-ρ) inpl nd f)
    (hd : inpl = true → δ = ρ)
    (he : inpl = true → ins (locT ℂ (-δ) (-ρ) (tag [⟨m, is, ((r / 2 : ℕ) : ℤ) * os⟩]) (some [⟨r / 2, (m : ℤ) * is, os⟩, ⟨v, ivs, ovs⟩])) =
      outs (locT ℂ (-δ) (-ρ) (tag [⟨m, is, ((r / 2 : ℕ) : ℤ) * os⟩]) (some [⟨r / 2, (m : ℤ) * is, os⟩, ⟨v, ivs, ovs⟩]))) :
    ChildB .viaDft r m v δ is ivs ρ os ovs inpl nd (fun I O => f (I + δ) (O + ρ)) := by
  intro I O st hp
  have ei : ins (locT ℂ (-δ) (-ρ) (tag [⟨m, is, ((r / 2 : ℕ) : ℤ) * os⟩]) (some [⟨r / 2, (m : ℤ) * is, os⟩, ⟨v, ivs, ovs⟩])) =
      offs [(2, -δ), (v, ivs), (r / 2 * m, is)] := offs_freq' r m v (-δ) is ivs
  have eo : outs (locT ℂ (-δ) (-ρ) (tag [⟨m, is, ((r / 2 : ℕ) : ℤ) * os⟩]) (some [⟨r / 2, (m : ℤ) * is, os⟩, ⟨v, ivs, ovs⟩])) =
      offs [(2, -ρ), (v, ovs), (r / 2 * m, os)] := offs_time' r m v (-ρ) os ovs
  have fi := offs_flip δ [(v, ivs), (r / 2 * m, is)]
  have fo := offs_flip ρ [(v, ovs), (r / 2 * m, os)]
  have mi : ∀ a ∈ offs [(2, -δ), (v, ivs), (r / 2 * m, is)], δ + a ∈ offs [(2, δ), (v, ivs), (r / 2 * m, is)] := fun a ha => by
    rw [← fi]; exact Multiset.mem_map_of_mem _ ha
  have mo : ∀ a ∈ offs [(2, -ρ), (v, ovs), (r / 2 * m, os)], ρ + a ∈ offs [(2, ρ), (v, ovs), (r / 2 * m, os)] := fun a ha => by
    rw [← fo]; exact Multiset.mem_map_of_mem _ ha
  obtain ⟨fr, hv⟩ := h ⟨by rw [eo]; exact Multiset.Nodup.of_map (fun x => ρ + x) (by rw [fo]; exact hp.out),
      fun hn => by rw [ei]; exact Multiset.Nodup.of_map (fun x => δ + x) (by rw [fi]; exact hp.inp hn), he, fun hh => by rw [hd hh]⟩ (I + δ) (O + ρ) st
    ⟨hp.blkI, hp.blkO, fun hh => by rw [hp.same hh, hd hh], fun hh a ha b hb => by
      rw [ei] at ha; rw [eo] at hb
      rw [Ptr.add_add, Ptr.add_add]
      exact hp.disj hh _ (mi a ha) _ (mo b hb)⟩
  refine ⟨fr.mono ?_, ?_⟩
  · rintro q _ (⟨b, hb, rfl⟩ | ⟨hn, a, ha, rfl⟩)
    · rw [eo] at hb
      exact Or.inl ⟨_, mo b hb, Ptr.add_add _ _ _⟩
    · rw [ei] at ha
      exact Or.inr ⟨hn, _, mi a ha, Ptr.add_add _ _ _⟩
  · intro G hG j hj hS b hb i hi
    have hb2 : b % 2 < 2 := Nat.mod_lt _ (by norm_num)
    have hb1 : b / 2 < r / 2 := by omega
    generalize hq : b / 2 = q at hb1
    have := hv [((⟨m, is, ((r / 2 : ℕ) : ℤ) * os⟩, ()), i)] ⟨rfl, by simpa using hi⟩
      ((q : ℤ) * ((m : ℤ) * is) + (j : ℤ) * ivs, (q : ℤ) * os + (j : ℤ) * ovs) (by
        refine mem_pairs_cons.2 ⟨q, hb1, ((j : ℤ) * ivs, (j : ℤ) * ovs), mem_pairs_cons.2 ⟨j, hj, 0, by simp [pairs, offs], by simp⟩, by simp⟩)
    rw [gOut_cons, gOut_nil] at this
    simp only [gSum, val_c, Ptr.add_add] at this
    -- the input, real and imaginary parts swapped
    have hin : ∀ l < m, (⟨st.mem (I + (δ + ((l : ℤ) * is + 0 + ((q : ℤ) * ((m : ℤ) * is) + (j : ℤ) * ivs)))),
        st.mem (I + (δ + (-δ + ((l : ℤ) * is + 0 + ((q : ℤ) * ((m : ℤ) * is) + (j : ℤ) * ivs)))))⟩ : ℂ) =
          Complex.I * cj (G (2 * q) l + Complex.I * G (2 * q + 1) l) := by
      intro l hl
      have h0 := hS 0 (by norm_num) (q * m + l) (mul_row hb1 hl)
      have h1 := hS 1 (by norm_num) (q * m + l) (mul_row hb1 hl)
      simp only [hc_mod q hl, show (q * m + l) / m = q by
        rw [mul_comm, Nat.mul_add_div (by omega), Nat.div_eq_of_lt hl, add_zero]] at h0 h1
      rw [show δ + ((l : ℤ) * is + 0 + ((q : ℤ) * ((m : ℤ) * is) + (j : ℤ) * ivs)) = ((1 : ℕ) : ℤ) * δ + ((q * m + l : ℕ) : ℤ) * is + (j : ℤ) * ivs by
        push_cast; ring, h1,
        show δ + (-δ + ((l : ℤ) * is + 0 + ((q : ℤ) * ((m : ℤ) * is) + (j : ℤ) * ivs))) = ((0 : ℕ) : ℤ) * δ + ((q * m + l : ℕ) : ℤ) * is + (j : ℤ) * ivs by
        push_cast; ring, h0]
      apply Complex.ext
      · simp [part]; ring
      · simp [part]
    have hsum : (∑ l ∈ Finset.range m, dftK () m l i * (⟨st.mem (I + (δ + ((l : ℤ) * is + 0 + ((q : ℤ) * ((m : ℤ) * is) + (j : ℤ) * ivs)))),
        st.mem (I + (δ + (-δ + ((l : ℤ) * is + 0 + ((q : ℤ) * ((m : ℤ) * is) + (j : ℤ) * ivs)))))⟩ : ℂ)) =
        Complex.I * cj ((∑ k ∈ Finset.range m, cj (ω m) ^ (k * i) * G (2 * q) k) + Complex.I * ∑ k ∈ Finset.range m, cj (ω m) ^ (k * i) * G (2 * q + 1) k) := by
      rw [Finset.mul_sum, ← Finset.sum_add_distrib, map_sum, Finset.mul_sum]
      refine Finset.sum_congr rfl fun l hl => ?_
      rw [hin l (Finset.mem_range.1 hl)]
      simp only [dftK, map_add, map_mul, map_pow, Complex.conj_conj, Complex.conj_I]
      ring
    have hreal : ∀ b, (∑ k ∈ Finset.range m, cj (ω m) ^ (k * i) * G b k).im = 0 := by
      intro b
      rw [← herm_real m i (packHc m (G b))]
      congr 1
      exact Finset.sum_congr rfl fun k hk => by rw [unpack_pack (hG b).1 (hG b).2 (Finset.mem_range.1 hk)]
    have r0 := hreal (2 * q)
    have r1 := hreal (2 * q + 1)
    rw [hsum] at this
    clear hreal hsum hin
    rcases Nat.mod_two_eq_zero_or_one b with h0 | h0
    · have hbq : b = 2 * q := by omega
      have hh := congrArg Complex.im this
      simp only [] at hh
      rw [hbq, show i * r + 2 * q = i * r + (2 * q + 0) by ring, zig_split hr (by norm_num)]
      rw [show (j : ℤ) * ovs + (((0 : ℕ) : ℤ) * ρ + ((i : ℤ) * ((r / 2 : ℕ) : ℤ) + (q : ℤ)) * os) =
        ρ + (-ρ + ((i : ℤ) * (((r / 2 : ℕ) : ℤ) * os) + 0 + ((q : ℤ) * os + (j : ℤ) * ovs))) by push_cast; ring, hh]
      generalize (∑ k ∈ Finset.range m, cj (ω m) ^ (k * i) * G (2 * q) k) = X0 at r0 ⊢
      generalize (∑ k ∈ Finset.range m, cj (ω m) ^ (k * i) * G (2 * q + 1) k) = X1 at r1 ⊢
      simp [r1]
    · have hbq : b = 2 * q + 1 := by omega
      have hh := congrArg Complex.re this
      simp only [] at hh
      rw [hbq, zig_split hr (by norm_num)]
      rw [show (j : ℤ) * ovs + (((1 : ℕ) : ℤ) * ρ + ((i : ℤ) * ((r / 2 : ℕ) : ℤ) + (q : ℤ)) * os) =
        ρ + ((i : ℤ) * (((r / 2 : ℕ) : ℤ) * os) + 0 + ((q : ℤ) * os + (j : ℤ) * ovs)) by push_cast; ring, hh]
      generalize (∑ k ∈ Finset.range m, cj (ω m) ^ (k * i) * G (2 * q) k) = X0 at r0 ⊢
      generalize (∑ k ∈ Finset.range m, cj (ω m) ^ (k * i) * G (2 * q + 1) k) = X1 at r1 ⊢
      simp [r0]

omit [CLib] in
theorem two_half {r m : ℕ} (hr : r % 2 = 0) : 2 * (r / 2 * m) = r * m := by rw [← mul_assoc]; congr 1; omega

omit [CLib] in
theorem at_zig (t : Hc2cP) (P : Ptr) (j : ℕ) {e : ℕ} (he : e < 2) (x : ℕ) : t.at P j e x = P + ((j : ℤ) * t.vs + zig t.δ t.ms (2 * x + e)) := by
  rw [Hc2cP.at, zig_add _ _ _ _ he]
  congr 1; ring

omit [CLib] in
theorem hc2cInj_of {t : Hc2cP} {s : ℤ} (hs : s = t.vs)
    (h : ∀ j < t.v, ∀ x < 2 * (t.r * t.m / 2 + 1), ∀ j' < t.v, ∀ x' < 2 * (t.r * t.m / 2 + 1),
      (j : ℤ) * s + zig t.δ t.ms x = (j' : ℤ) * s + zig t.δ t.ms x' → j = j' ∧ x = x') : Hc2cInj t := by
  subst hs
  intro P i hi e he x hx i' hi' e' he' x' hx' eq
  rw [at_zig _ _ _ he, at_zig _ _ _ he'] at eq
  have := h i hi (2 * x + e) (by omega) i' hi' (2 * x' + e') (by omega) ((ptr_add_right_inj P).1 eq)
  omega

omit [CLib] in
/-- Cooley-Tukey for real-to-complex transforms -/
theorem HOK_hc2c_fwd {via : Hc2cKind} {r m v : ℕ} {ρ is ivs δ os ovs : ℤ} {inpl nd : Bool} {f1 f2 : Ptr → Ptr → State → State}
    (hr : r % 2 = 0) (hr0 : r ≠ 0) (hm : m ≠ 0) (h1 : ChildF via r m v ρ is ivs δ os ovs inpl nd f1) (h2 : Hc2cOK via true ⟨r, m, os, v, ovs, δ⟩ f2) :
    HOK (r2cHalf (r * m) ρ is δ os) [] (some [⟨v, ivs, ovs⟩]) inpl nd (fun I O st => f2 O (O + δ) (f1 I O st)) := by
  apply HOK_rows
  intro I O st hO hI bI bO same disj
  simp only [OInj, IInj, r2cHalf] at hO hI disj
  have hL := two_half (m := m) hr
  have hn2 : r * m / 2 = r / 2 * m := by omega
  have NO : (offs [(2, δ), (v, ovs), (r / 2 * m, os)]).Nodup := RowInj.nodup3 (by
    intro j hj t ht j' hj' t' ht' e
    exact hO j hj t (by omega) j' hj' t' (by omega) e)
  have NI : nd = false → (offs [(2, ρ), (v, ivs), (r / 2 * m, is)]).Nodup := fun hn => RowInj.nodup3 (by
    intro j hj t ht j' hj' t' ht' e
    exact hI (Or.inl hn) j hj t (by omega) j' hj' t' (by omega) e)
  obtain ⟨fr1, v1⟩ := h1 I O st ⟨NO, NI, bI, bO, fun h => (same h).1, fun h a ha b hb => by
    obtain ⟨j, hj, t, ht, rfl⟩ := mem_offs_rows3.1 ha
    obtain ⟨j', hj', t', ht', rfl⟩ := mem_offs_rows3.1 hb
    exact disj h j hj t (by omega) j' hj' t' (by omega)⟩
  obtain ⟨fr2, v2⟩ := h2 (hc2cInj_of (t := ⟨r, m, os, v, ovs, δ⟩) rfl hO) O (f1 I O st) (lt_of_lt_of_le bO fr1.next)
  refine ⟨fr1.next.trans fr2.next, ?_, ?_⟩
  · intro q hq ho hi
    simp only [r2cHalf] at ho hi
    rw [fr2.mem q (lt_of_lt_of_le hq fr1.next), fr1.mem q hq]
    · rintro (⟨b, hb, rfl⟩ | ⟨hn, a, ha, rfl⟩)
      · obtain ⟨j, hj, t, ht, rfl⟩ := mem_offs_rows3.1 hb
        exact ho j hj t (by omega) rfl
      · obtain ⟨j, hj, t, ht, rfl⟩ := mem_offs_rows3.1 ha
        exact hi (Or.inl hn) j hj t (by omega) rfl
    · rintro ⟨i, hv, e, he, x, hx, rfl⟩
      simp only at hv hx
      rw [at_zig _ _ _ he] at ho
      exact ho i hv (2 * x + e) (by omega) rfl
  · intro j hj t ht
    simp only [r2cHalf] at ht ⊢
    have ht2 : t % 2 < 2 := Nat.mod_lt _ (by norm_num)
    have := v2 j hj (t % 2) ht2 (t / 2) (by simp only; omega) (by simp)
    rw [at_zig _ _ _ ht2, show 2 * (t / 2) + t % 2 = t by omega] at this
    refine this.trans ?_
    simp only [hc2cStep, if_true]
    have key := hc2c_dit via (f := t / 2) hr0 hm (fun e x => (f1 I O st).mem (O + ((e : ℤ) * δ + (x : ℤ) * os + (j : ℤ) * ovs)))
      (fun t => st.mem (I + ((j : ℤ) * ivs + zig ρ is t))) (fun b hb k hk => v1 j hj b hb k hk)
    refine (congrArg (part (t % 2)) key).trans ?_
    unfold part
    split <;> rfl

omit [CLib] in
/-- Cooley-Tukey for complex-to-real transforms -/
theorem HOK_hc2c_bwd {via : Hc2cKind} {r m v : ℕ} {ρ is ivs δ os ovs : ℤ} {inpl nd : Bool} {f1 f2 : Ptr → Ptr → State → State}
    (hr : r % 2 = 0) (hr0 : r ≠ 0) (hm : m ≠ 0) (hnd : nd = false ∨ inpl = true)
    (h1 : Hc2cOK via false ⟨r, m, is, v, ivs, δ⟩ f1) (h2 : ChildB via r m v δ is ivs ρ os ovs inpl nd f2) :
    HOK (c2rHalf (r * m) ρ os δ is) [] (some [⟨v, ivs, ovs⟩]) inpl nd (fun I O st => f2 I O (f1 I (I + δ) st)) := by
  apply HOK_rows
  intro I O st hO hI bI bO same disj
  have hI := hI hnd
  simp only [OInj, IInj, c2rHalf] at hO hI disj
  have hL := two_half (m := m) hr
  have hn2 : r * m / 2 = r / 2 * m := by omega
  have NO : (offs [(2, ρ), (v, ovs), (r / 2 * m, os)]).Nodup := RowInj.nodup3 (by
    intro j hj t ht j' hj' t' ht' e
    exact hO j hj t (by omega) j' hj' t' (by omega) e)
  have NI : (offs [(2, δ), (v, ivs), (r / 2 * m, is)]).Nodup := RowInj.nodup3 (by
    intro j hj t ht j' hj' t' ht' e
    exact hI j hj t (by omega) j' hj' t' (by omega) e)
  obtain ⟨fr1, v1⟩ := h1 (hc2cInj_of (t := ⟨r, m, is, v, ivs, δ⟩) rfl hI) I st bI
  obtain ⟨fr2, v2⟩ := h2 I O (f1 I (I + δ) st) ⟨NO, fun _ => NI, lt_of_lt_of_le bI fr1.next, lt_of_lt_of_le bO fr1.next, fun h => (same h).1, fun h a ha b hb => by
    obtain ⟨j, hj, t, ht, rfl⟩ := mem_offs_rows3.1 ha
    obtain ⟨j', hj', t', ht', rfl⟩ := mem_offs_rows3.1 hb
    exact disj h j hj t (by omega) j' hj' t' (by omega)⟩
  refine ⟨fr1.next.trans fr2.next, ?_, ?_⟩
  · intro q hq ho hi
    have hi := hi hnd
    simp only [c2rHalf] at ho hi
    rw [fr2.mem q (lt_of_lt_of_le hq fr1.next), fr1.mem q hq]
    · rintro ⟨i, hv, e, he, x, hx, rfl⟩
      simp only at hv hx
      rw [at_zig _ _ _ he] at hi
      exact hi i hv (2 * x + e) (by omega) rfl
    · rintro (⟨b, hb, rfl⟩ | ⟨hn, a, ha, rfl⟩)
      · obtain ⟨j, hj, t, ht, rfl⟩ := mem_offs_rows3.1 hb
        exact ho j hj t (by omega) rfl
      · obtain ⟨j, hj, t, ht, rfl⟩ := mem_offs_rows3.1 ha
        exact hi j hj t (by omega) rfl
  · intro j hj t ht
    simp only [c2rHalf] at ht
    have hti : t / r < m := Nat.div_lt_of_lt_mul ht
    have htb : t % r < r := Nat.mod_lt _ (by omega)
    have hte : t = t / r * r + t % r := by rw [mul_comm]; exact (Nat.div_add_mod t r).symm
    have key := v2 (hc2cBwd r m fun e x => st.mem (Hc2cP.at ⟨r, m, is, v, ivs, δ⟩ I j e x)) (by
        intro b
        refine ⟨hc2cBwd_real _ b hm (Or.inl rfl), fun q h0 hq => ?_⟩
        rw [hc2cBwd_eq _ b (by omega), hc2cBwd_eq _ b hq]
        exact hcRow_herm _ _ _ _ h0 hq) j hj (by
        intro e he x hx
        have := v1 j hj e he x (by simp only; omega) (by intro _; simp only; omega)
        refine this.trans ?_
        simp only [hc2cStep]
        cases via <;> rfl) (t % r) htb (t / r) hti
    rw [← hte] at key
    refine key.trans ?_
    rw [hc2c_dif hr0 hm, ← hte, Complex.ofReal_re]
    simp only [hcOf_chv]
    rw [c2r_of_hc (by omega) _ ρ os δ is]
    simp only [c2rHalf]
    congr 1
    refine Finset.sum_congr rfl fun i _ => ?_
    congr 3
    rw [at_zig _ _ _ (Nat.mod_lt _ (by norm_num)), show 2 * (i / 2) + i % 2 = i by omega]

omit [CLib] in
theorem good_needC {fl : Flags} {Q : Plan → Prop} {R : CPlan → Prop} {w : Mk (Option CPlan)} {k : CPlan → Mk (Option Plan)}
    (hw : w.Good fl fun r => ∀ f, r = some f → R f) (hk : ∀ c, R c → (k c).Good fl fun r => ∀ pl, r = some pl → Q pl) :
    (Mk.needC w k).Good fl fun r => ∀ pl, r = some pl → Q pl := by
  apply Mk.Good.bind hw
  intro r hr
  cases r with
  | none => exact good_nada
  | some c => exact hk c (hr c rfl)

omit [CLib] in
theorem ptr_sub_add' {p q : Ptr} (h : p.blk = q.blk) : q + (p - q : ℤ) = p := by
  obtain ⟨b, x⟩ := p
  obtain ⟨c, y⟩ := q
  simp only at h
  subst h
  show (⟨b, y + (x - y)⟩ : Ptr) = ⟨b, x⟩
  rw [add_sub_cancel]

/-- complex problems with only one of the two arrays in place are unsolvable -/
theorem sound_dft_both {nd : Bool} {sz : List Dim} {vec : Tensor} {ri ii ro io : Ptr} {c : Plan} (h : Sound nd (mkproblemDft sz vec ri ii ro io) c) :
    ii = io → ri = ro := by
  intro he
  unfold mkproblemDft at h
  split at h
  · exact absurd h (by cases c <;> exact id)
  · rename_i hc
    by_contra hne
    exact hc (by simp [he, hne])

theorem kosher_mkproblemDft' {sz : List Dim} {vec : Tensor} {ri ii ro io : Ptr} (h1 : NonNeg sz) (h2 : NonNegV vec) (h0 : Pos sz)
    (ha : ri ≠ ro → ii ≠ io → Apart (locT ℂ (ii - ri) (io - ro) (tag sz) vec) ri ro) : Kosher (mkproblemDft sz vec ri ii ro io) := by
  by_cases he : ii = io
  · by_cases hr : ri = ro
    · exact kosher_mkproblemDft h1 h2 h0 fun h => absurd hr h
    · unfold mkproblemDft
      rw [if_pos (by simp [he, hr])]
      trivial
  · exact kosher_mkproblemDft h1 h2 h0 fun h => ha h he

/-- rdft/ct-hc2c.c -/
theorem ctHc2c_sound {via : Hc2cKind} {mkcldw : CInferior} (hw : CInferior.Sound via mkcldw) (rdx : ℤ) (taste : Taste) :
    (ctHc2c via rdx mkcldw taste).Sound := by
  apply rdft2Solver_sound
  intro p fl hk
  obtain ⟨hip, hap, hnn, hpos, hvp⟩ := kosher_rdft2 hk
  split
  rotate_left
  · exact good_nada
  rename_i d vec hsz hvec
  split
  rotate_left
  · exact good_nada
  rename_i vd rr htor hrr
  split
  rotate_left
  · exact good_nada
  rename_i happ
  obtain ⟨hkind, hr1, hrn, _⟩ := happ
  have hdvd : rr ∣ (d.n : ℤ) := by
    rcases Primes.chooseRadix_dvd hrr with h | h
    · omega
    · exact h
  obtain ⟨r, rfl⟩ : ∃ r : ℕ, rr = (r : ℤ) := ⟨rr.toNat, by omega⟩
  simp only [Int.toNat_natCast]
  have hdvd' : r ∣ d.n := by exact_mod_cast hdvd
  obtain ⟨m, hm⟩ := hdvd'
  have hr0 : r ≠ 0 := by omega
  have hm0 : m ≠ 0 := by rintro rfl; simp at hm; omega
  have hdm : d.n / r = m := by rw [hm]; exact Nat.mul_div_cancel_left _ (by omega)
  rw [hdm]
  have hdnn : 0 ≤ d.is ∧ 0 ≤ d.os := hnn d (by rw [hsz]; simp)
  obtain ⟨n, is, os⟩ := d
  have hvnn : 0 ≤ vd.is ∧ 0 ≤ vd.os := by
    match vec, htor with
    | [], h => obtain rfl := Option.some.inj h; simp
    | [e], h => obtain rfl := Option.some.inj h; exact (hvp _ hvec).1 e (by simp)
  obtain ⟨v, ivs, ovs⟩ := vd
  simp only at hm hrn hdnn hvnn ⊢
  subst hm
  have final : ∀ (g : Ptr → Ptr → Ptr → Ptr → State → State),
      HOK (half2 p.kind ⟨r * m, is, os⟩ (p.r1 - p.r0) (p.ci - p.cr)) [] (some [⟨v, ivs, ovs⟩]) (decide (p.r0 = p.cr)) fl.nd
        (run2 p.kind (p.r1 - p.r0) (p.ci - p.cr) g) → FFTW.Sound fl.nd (.rdft2 p) (.rdft2 g) := by
    intro g h
    refine soundRdft2 (by simp [hvec]) ?_
    rw [hsz, hvec]
    exact h.vec_congr (tornk1_pairs htor)
  have hA : p.r0 ≠ p.cr → HApart (half2 p.kind ⟨r * m, is, os⟩ (p.r1 - p.r0) (p.ci - p.cr)) (some [⟨v, ivs, ovs⟩]) (in2 p.kind p.r0 p.cr) (out2 p.kind p.r0 p.cr) := by
    intro hne
    have := hap hne
    rw [hsz, hvec] at this
    exact this.of_pairs (tornk1_pairs htor).symm
  have hL : r % 2 = 0 → 2 * (r / 2 * m) = r * m := two_half
  have hblk := kosher_rdft2_blk hk
  split
  · rename_i hkd
    rw [hkd] at final hA
    simp only [half2, run2, in2, out2] at final hA
    apply good_needC (hw true _ _ _ _ (Nat.pos_of_ne_zero hr0) (Nat.pos_of_ne_zero hm0) hdnn.2 rfl hblk.2)
    rintro cldw ⟨hr2, hcw⟩
    simp only at hr2
    have hdis : p.r0 ≠ p.cr → ∀ a ∈ offs [(2, (p.r1 - p.r0 : ℤ)), (v, ivs), (r / 2 * m, is)],
        ∀ b ∈ offs [(2, (p.ci - p.cr : ℤ)), (v, ovs), (r / 2 * m, os)], p.r0 + a ≠ p.cr + b := by
      intro hne a ha b hb
      obtain ⟨j, hj, t, ht, rfl⟩ := mem_offs_rows3.1 ha
      obtain ⟨j', hj', t', ht', rfl⟩ := mem_offs_rows3.1 hb
      have := hL hr2
      exact hA hne _ (mem_hIns.2 ⟨_, mem_pairs1.2 ⟨j, hj, rfl⟩, t, by simp only [r2cHalf]; omega, rfl⟩) _
        (mem_hOuts.2 ⟨_, mem_pairs1.2 ⟨j', hj', rfl⟩, t', by simp only [r2cHalf]; omega, rfl⟩)
    split
    · have hposk : PosK [((⟨m, ((r / 2 : ℕ) : ℤ) * is, os⟩ : Dim), RKind.R2HC00)] := by
        intro e he; simp only [List.mem_singleton] at he; subst he; exact Nat.pos_of_ne_zero hm0
      apply good_need
      · apply kosher_mkproblemRdft hposk
        intro hne a ha b hb
        change a ∈ offs [(m, ((r / 2 : ℕ) : ℤ) * is), (2, (p.r1 - p.r0 : ℤ)), (r / 2, is), (v, ivs)] at ha
        change b ∈ offs [(m, os), (2, (p.ci - p.cr : ℤ)), (r / 2, (m : ℤ) * os), (v, ovs)] at hb
        rw [offs_time] at ha
        rw [offs_freq] at hb
        exact hdis hne a ha b hb
      intro c hc
      rw [modify_default] at hc
      obtain ⟨hG, hG2⟩ := sound_mkproblemRdft hposk hc
      apply good_ret
      apply final
      exact HOK_hc2c_fwd hr2 hr0 hm0 (childF_real hr2 hG fun h => hG2 (of_decide_eq_true h)) hcw
    · apply good_need
      · apply kosher_mkproblemDft
        · intro e he; simp only [List.mem_singleton] at he; subst he; exact ⟨mul_nonneg (Int.natCast_nonneg _) hdnn.1, hdnn.2⟩
        · rw [nonNegV_some]
          intro e he
          simp only [List.mem_cons, List.not_mem_nil, or_false] at he
          rcases he with rfl | rfl
          · exact ⟨hdnn.1, mul_nonneg (Int.natCast_nonneg _) hdnn.2⟩
          · exact hvnn
        · intro e he; simp only [List.mem_singleton] at he; subst he; exact Nat.pos_of_ne_zero hm0
        · intro hne a ha b hb
          change a ∈ offs [(2, (p.r1 - p.r0 : ℤ)), (m, ((r / 2 : ℕ) : ℤ) * is), (r / 2, is), (v, ivs)] at ha
          change b ∈ offs [(2, (p.ci - p.cr : ℤ)), (m, os), (r / 2, (m : ℤ) * os), (v, ovs)] at hb
          rw [offs_time'] at ha
          rw [offs_freq'] at hb
          exact hdis hne a ha b hb
      intro c hc
      rw [modify_default] at hc
      obtain ⟨hG, hG2⟩ := sound_mkproblemDft hc
      apply good_ret
      apply final
      refine HOK_hc2c_fwd hr2 hr0 hm0 (childF_dft hr2 hm0 hG (fun h => ?_) fun h => (hG2 (of_decide_eq_true h)).2) hcw
      have h := of_decide_eq_true h
      rw [h, (hG2 h).1]
  · rename_i hkd
    rw [hkd] at final hA
    simp only [half2, run2, in2, out2] at final hA
    have hnd : fl.nd = false ∨ decide (p.r0 = p.cr) = true := by
      rcases hkind with h | ⟨_, h⟩
      · rw [hkd] at h; exact absurd h (by decide)
      · rcases h with h | h
        · exact Or.inr (decide_eq_true h)
        · exact Or.inl h
    apply good_needC (hw false _ _ _ _ (Nat.pos_of_ne_zero hr0) (Nat.pos_of_ne_zero hm0) hdnn.1 rfl hblk.2)
    rintro cldw ⟨hr2, hcw⟩
    simp only at hr2
    have hdis : p.r0 ≠ p.cr → ∀ a ∈ offs [(2, (p.ci - p.cr : ℤ)), (v, ivs), (r / 2 * m, is)],
        ∀ b ∈ offs [(2, (p.r1 - p.r0 : ℤ)), (v, ovs), (r / 2 * m, os)], p.cr + a ≠ p.r0 + b := by
      intro hne a ha b hb
      obtain ⟨j, hj, t, ht, rfl⟩ := mem_offs_rows3.1 ha
      obtain ⟨j', hj', t', ht', rfl⟩ := mem_offs_rows3.1 hb
      have := hL hr2
      exact hA hne _ (mem_hIns.2 ⟨_, mem_pairs1.2 ⟨j, hj, rfl⟩, t, by simp only [c2rHalf]; omega, rfl⟩) _
        (mem_hOuts.2 ⟨_, mem_pairs1.2 ⟨j', hj', rfl⟩, t', by simp only [c2rHalf]; omega, rfl⟩)
    split
    · have hposk : PosK [((⟨m, is, ((r / 2 : ℕ) : ℤ) * os⟩ : Dim), RKind.HC2R00)] := by
        intro e he; simp only [List.mem_singleton] at he; subst he; exact Nat.pos_of_ne_zero hm0
      apply good_need
      · apply kosher_mkproblemRdft hposk
        intro hne a ha b hb
        change a ∈ offs [(m, is), (2, (p.ci - p.cr : ℤ)), (r / 2, (m : ℤ) * is), (v, ivs)] at ha
        change b ∈ offs [(m, ((r / 2 : ℕ) : ℤ) * os), (2, (p.r1 - p.r0 : ℤ)), (r / 2, os), (v, ovs)] at hb
        rw [offs_freq] at ha
        rw [offs_time] at hb
        exact hdis (fun h => hne h.symm) a ha b hb
      intro c hc
      rw [modify_default] at hc
      obtain ⟨hG, hG2⟩ := sound_mkproblemRdft hposk hc
      apply good_ret
      apply final
      have hfl : decide (p.cr = p.r0) = decide (p.r0 = p.cr) := decide_eq_decide.2 ⟨fun h => h.symm, fun h => h.symm⟩
      rw [hfl] at hG
      exact HOK_hc2c_bwd hr2 hr0 hm0 hnd hcw (childB_real hr2 hm0 hG fun h => hG2 (of_decide_eq_true h).symm)
    · have n1 : (p.cr - p.ci : ℤ) = - (p.ci - p.cr : ℤ) := by show p.cr.off - p.ci.off = -(p.ci.off - p.cr.off); ring
      have n2 : (p.r0 - p.r1 : ℤ) = - (p.r1 - p.r0 : ℤ) := by show p.r0.off - p.r1.off = -(p.r1.off - p.r0.off); ring
      have a1 : p.cr + (p.ci - p.cr : ℤ) = p.ci := ptr_sub_add' hblk.2
      have a2 : p.r0 + (p.r1 - p.r0 : ℤ) = p.r1 := ptr_sub_add' hblk.1
      apply good_need
      · refine kosher_mkproblemDft' ?_ ?_ ?_ ?_
        · intro e he; simp only [List.mem_singleton] at he; subst he; exact ⟨hdnn.1, mul_nonneg (Int.natCast_nonneg _) hdnn.2⟩
        · rw [nonNegV_some]
          intro e he
          simp only [List.mem_cons, List.not_mem_nil, or_false] at he
          rcases he with rfl | rfl
          · exact ⟨mul_nonneg (Int.natCast_nonneg _) hdnn.1, hdnn.2⟩
          · exact hvnn
        · intro e he; simp only [List.mem_singleton] at he; subst he; exact Nat.pos_of_ne_zero hm0
        · intro _ hne a ha b hb
          change a ∈ offs [(2, (p.cr - p.ci : ℤ)), (m, is), (r / 2, (m : ℤ) * is), (v, ivs)] at ha
          change b ∈ offs [(2, (p.r0 - p.r1 : ℤ)), (m, ((r / 2 : ℕ) : ℤ) * os), (r / 2, os), (v, ovs)] at hb
          rw [offs_freq', n1] at ha
          rw [offs_time', n2] at hb
          have := hdis (fun h => hne h.symm) _ (by rw [← offs_flip]; exact Multiset.mem_map_of_mem _ ha) _ (by rw [← offs_flip]; exact Multiset.mem_map_of_mem _ hb)
          rw [← Ptr.add_add, ← Ptr.add_add, a1, a2] at this
          exact this
      intro c hc
      rw [modify_default] at hc
      have hii := sound_dft_both hc
      obtain ⟨hG, hG2⟩ := sound_mkproblemDft hc
      apply good_ret
      apply final
      have hfl : decide (p.ci = p.r1) = decide (p.r0 = p.cr) := decide_eq_decide.2 ⟨fun h => (hG2 h).1.symm, fun h => hii h.symm⟩
      rw [hfl, n1, n2] at hG
      rw [n1, n2] at hG2
      have key := childB_dft hr2 hm0 hG (fun h => by
        have h := (of_decide_eq_true h).symm
        rw [h, hii h]) (fun h => (hG2 (hii (of_decide_eq_true h).symm)).2)
      have e : ∀ (I : Ptr) (x : ℤ), I + x + -x = I := fun I x => by rw [Ptr.add_add, add_neg_cancel, Ptr.add_zero]
      simp only [e] at key
      exact HOK_hc2c_bwd hr2 hr0 hm0 hnd hcw key

end FFTW.Rdft2S
