import Verif.Proofs.Threads

/-! # threads/ct.c and threads/hc2hc.c are sound -/

namespace FFTW.Spec
open FFTW.Tensor FFTW.DftS FFTW.Thr

theorem perm3 {α : Type} (a b c d : α) : [a, b, c, d].Perm [c, a, b, d] :=
  List.perm_middle (l₁ := [a, b]) (l₂ := [d])

/-- out locations of column `l` -/
def ColLoc (t : TwP) (δ : ℤ) (P : Ptr) (l : ℕ) (q : Ptr) : Prop :=
  ∃ c j i : ℕ, c < 2 ∧ j < t.r ∧ i < t.v ∧ q = P + ((c : ℤ) * δ + ((j : ℤ) * t.ors + (l : ℤ) * t.ms + (i : ℤ) * t.ovs))

theorem colLoc_inj {t : TwP} {δ : ℤ} {P q : Ptr} (hn : (outs (t.locT δ)).Nodup) {l l' : ℕ} (hl : t.mb ≤ l) (hl2 : l < t.mb + t.mc)
    (hl' : t.mb ≤ l') (hl2' : l' < t.mb + t.mc) (h : ColLoc t δ P l q) (h' : ColLoc t δ P l' q) : l = l' := by
  obtain ⟨c, j, i, hc, hj, hi, rfl⟩ := h
  obtain ⟨c', j', i', hc', hj', hi', e⟩ := h'
  replace e := Ptr.add_inj.1 e
  rw [TwP.locT, outs_four] at hn
  simp only at hn
  rw [offs_perm (perm3 (2, δ) (t.r, t.ors) (t.mc, t.ms) (t.v, t.ovs))] at hn
  have h1 : (c : ℤ) * δ + (j : ℤ) * t.ors + (i : ℤ) * t.ovs ∈ offs [(2, δ), (t.r, t.ors), (t.v, t.ovs)] := mem_offs3.2 ⟨c, j, i, hc, hj, hi, rfl⟩
  have h2 : (c' : ℤ) * δ + (j' : ℤ) * t.ors + (i' : ℤ) * t.ovs ∈ offs [(2, δ), (t.r, t.ors), (t.v, t.ovs)] := mem_offs3.2 ⟨c', j', i', hc', hj', hi', rfl⟩
  obtain ⟨a, rfl⟩ := Nat.exists_eq_add_of_le hl
  obtain ⟨a', rfl⟩ := Nat.exists_eq_add_of_le hl'
  have := (offs_cons_inj hn (i := a) (i' := a') (by omega) (by omega) h1 h2 (by push_cast at e; linarith)).1
  omega

/-- blocks of columns, done in any order -/
theorem TwOK_spawn (S : Sched) {dit : Bool} {t : TwP} {δ : ℤ} {N : ℕ} {a s : ℕ → ℕ} {f : ℕ → Ptr → State → State} (hsh : t.Shape)
    (hin : ∀ k < N, t.mb ≤ a k ∧ a k + s k ≤ t.mb + t.mc)
    (hcov : ∀ l, t.mb ≤ l → l < t.mb + t.mc → ∃ k < N, a k ≤ l ∧ l < a k + s k)
    (hdis : ∀ k < N, ∀ k' < N, ∀ l, a k ≤ l → l < a k + s k → a k' ≤ l → l < a k' + s k' → k = k')
    (h : ∀ k < N, TwOK dit { t with mb := a k, mc := s k } δ (f k)) :
    TwOK dit t δ (fun P st => spawn S N (fun k => f k P) st) := by
  intro hn he P st hP
  obtain ⟨σ, h1, h2, h3⟩ := spawn_forN S N st
  simp only [h3]
  have hσi : ∀ k < N, ∀ k' < N, σ k = σ k' → k = k' := by
    have hnd : ((Multiset.range N).map σ).Nodup := by rw [h2]; exact Multiset.nodup_range N
    intro k hk k' hk' e
    exact Multiset.inj_on_of_nodup_map hnd k (Multiset.mem_range.2 hk) k' (Multiset.mem_range.2 hk') e
  have hσs : ∀ k < N, ∃ k' < N, σ k' = k := by
    intro k hk
    have : k ∈ (Multiset.range N).map σ := by rw [h2]; exact Multiset.mem_range.2 hk
    obtain ⟨k', hk', rfl⟩ := Multiset.mem_map.1 this
    exact ⟨k', Multiset.mem_range.1 hk', rfl⟩
  have hW : ∀ k, ∀ q, (∃ b ∈ outs (({ t with mb := a k, mc := s k } : TwP).locT δ), q = P + (((a k : ℕ) : ℤ) * t.ms + b)) ↔
      ∃ l, a k ≤ l ∧ l < a k + s k ∧ ColLoc t δ P l q := by
    intro k q
    constructor
    · rintro ⟨b, hb, rfl⟩
      obtain ⟨c, j, l, i, hc, hj, hl, hi, rfl⟩ := mem_outs_tw.1 hb
      exact ⟨a k + l, by omega, by simp only at hl; omega, c, j, i, hc, hj, hi, by congr 1; push_cast; ring⟩
    · rintro ⟨l, hl, hl2, c, j, i, hc, hj, hi, rfl⟩
      obtain ⟨x, rfl⟩ := Nat.exists_eq_add_of_le hl
      exact ⟨_, mem_outs_tw.2 ⟨c, j, x, i, hc, hj, by simp only; omega, hi, rfl⟩, by congr 1; push_cast; ring⟩
  have hnod : ∀ k < N, (outs (({ t with mb := a k, mc := s k } : TwP).locT δ)).Nodup := by
    intro k hk
    obtain ⟨b1, b2⟩ := hin k hk
    rw [TwP.locT, outs_four] at hn ⊢
    simp only at hn ⊢
    rw [offs_perm (perm3 (2, δ) (t.r, t.ors) (t.mc, t.ms) (t.v, t.ovs)), offs_cons] at hn
    rw [offs_perm (perm3 (2, δ) (t.r, t.ors) (s k, t.ms) (t.v, t.ovs)), offs_cons]
    rw [show t.mc = s k + (t.mc - s k) by omega, Multiset.range_add, Multiset.add_bind] at hn
    exact (Multiset.nodup_add.1 hn).1
  have hio : ∀ k < N, ins (({ t with mb := a k, mc := s k } : TwP).locT δ) = outs (({ t with mb := a k, mc := s k } : TwP).locT δ) := by
    intro k _
    rw [TwP.locT, ins_four, outs_four]
    simp only
    rcases hsh with ⟨e1, e2⟩ | ⟨e1, e2, e3⟩
    · rw [e1, e2]
    · rw [e2, e3, ← e1]
      apply offs_perm
      apply List.Perm.cons
      exact (List.reverse_perm [(t.r, t.ovs), (s k, t.ms), (t.r, t.ivs)]).symm
  -- input locations of a column are its output locations
  have hinc : ∀ l j i c : ℕ, j < t.r → i < t.v → c < 2 → ColLoc t δ P l (P + ((c : ℤ) * δ + ((j : ℤ) * t.irs + (l : ℤ) * t.ms + (i : ℤ) * t.ivs))) := by
    intro l j i c hj hi hc
    rcases hsh with ⟨e1, e2⟩ | ⟨e1, e2, e3⟩
    · exact ⟨c, j, i, hc, hj, hi, by rw [e1, e2]⟩
    · exact ⟨c, i, j, hc, by omega, by omega, by rw [e2, e3]; congr 1; ring⟩
  have key := forN_local (N := N) (f := fun k => f (σ k) P) (st := st)
    (W := fun k q => ∃ l, a (σ k) ≤ l ∧ l < a (σ k) + s (σ k) ∧ ColLoc t δ P l q)
    (Q := fun k m1 m2 => ∀ i' l i : ℕ, i' < t.r → a (σ k) ≤ l → l < a (σ k) + s (σ k) → i < t.v →
      (val m2 P δ (i' * t.ors + l * t.ms + i * t.ovs) : ℂ) = twStep dit t.r t.m l i' fun j => val m1 P δ (j * t.irs + l * t.ms + i * t.ivs))
    ?_ ?_ ?_ ?_
  · obtain ⟨k1, k2⟩ := key
    refine ⟨k1.mono fun q _ hq => ?_, ?_⟩
    · obtain ⟨k, hk, l, hl, hl2, c, j, i, hc, hj, hi, rfl⟩ := hq
      obtain ⟨b1, b2⟩ := hin (σ k) (h1 k hk)
      obtain ⟨x, rfl⟩ := Nat.exists_eq_add_of_le (b1.trans hl)
      exact ⟨_, mem_outs_tw.2 ⟨c, j, x, i, hc, hj, by omega, hi, rfl⟩, by congr 1; push_cast; ring⟩
    · intro i' l i hi' hl hl2 hi
      obtain ⟨k, hk, e1, e2⟩ := hcov l hl hl2
      obtain ⟨k', hk', rfl⟩ := hσs k hk
      exact k2 k' hk' i' l i hi' e1 e2 hi
  · intro k hk st' hst'
    obtain ⟨f1, f2⟩ := h (σ k) (h1 k hk) (hnod _ (h1 k hk)) (hio _ (h1 k hk)) P st' (lt_of_lt_of_le hP hst')
    exact ⟨f1.mono fun q _ hq => (hW _ q).1 hq, fun i' l i hi' hl hl2 hi => f2 i' l i hi' hl hl2 hi⟩
  · intro k hk m1 m2 m1' m2' e1 e2 hQ i' l i hi' hl hl2 hi
    have v2 : (val m2' P δ (i' * t.ors + l * t.ms + i * t.ovs) : ℂ) = val m2 P δ (i' * t.ors + l * t.ms + i * t.ovs) :=
      Elt.dec_congr _ _ fun c hc => (e2 _ ⟨l, hl, hl2, c, i', i, hc, hi', hi, rfl⟩).symm
    rw [v2, hQ i' l i hi' hl hl2 hi]
    apply twStep_congr
    intro j hj
    exact Elt.dec_congr _ _ fun c hc => e1 _ ⟨l, hl, hl2, hinc l j i c hj hi hc⟩
  · rintro k hk k' hk' hne q ⟨l, hl, hl2, hq⟩ ⟨l', hl', hl2', hq'⟩
    obtain ⟨b1, b2⟩ := hin (σ k) (h1 k hk)
    obtain ⟨c1, c2⟩ := hin (σ k') (h1 k' hk')
    have := colLoc_inj hn (by omega) (by omega) (by omega) (by omega) hq hq'
    subst this
    exact hne (hσi k hk k' hk' (hdis _ (h1 k hk) _ (h1 k' hk') l hl hl2 hl' hl2'))
  · rintro k hk q ⟨l, hl, hl2, c, j, i, hc, hj, hi, rfl⟩
    exact hP

end FFTW.Spec

namespace FFTW.Thr

theorem block_mem {n T l : ℕ} (hn : 0 < n) (hT : 0 < T) (hl : l < n) :
    ∃ k < count n T, k * blockSize n T ≤ l ∧ l < k * blockSize n T + blockLen n T k := by
  have := range_blocks hn hT
  have h : l ∈ Multiset.range n := Multiset.mem_range.2 hl
  rw [this] at h
  obtain ⟨k, hk, h⟩ := Multiset.mem_bind.1 h
  obtain ⟨j, hj, rfl⟩ := Multiset.mem_map.1 h
  exact ⟨k, Multiset.mem_range.1 hk, by omega, by have := Multiset.mem_range.1 hj; omega⟩

theorem block_unique {n T l k k' : ℕ} (hn : 0 < n) (hT : 0 < T) (hk : k < count n T) (hk' : k' < count n T) (h1 : k * blockSize n T ≤ l)
    (h2 : l < k * blockSize n T + blockLen n T k) (h3 : k' * blockSize n T ≤ l) (h4 : l < k' * blockSize n T + blockLen n T k') : k = k' := by
  have e := (block_end hn hT hk).1
  have e' := (block_end hn hT hk').1
  have hb := blockSize_pos hn hT
  have h5 : l / blockSize n T = k := Nat.div_eq_of_lt_le h1 (by omega)
  have h6 : l / blockSize n T = k' := Nat.div_eq_of_lt_le h3 (by omega)
  omega

end FFTW.Thr

namespace FFTW.DftS
open Tensor Spec Thr

theorem thrInferior_sound (S : Sched) {dit : Bool} {mk : Inferior} (hw : Inferior.Sound dit mk) : Inferior.Sound dit (thrInferior S mk) := by
  intro t rio iio fl hr hm0 hirs hors hms hivs hovs hm hsh
  unfold thrInferior
  split
  rotate_left
  · intro f hf; simp at hf
  rename_i hT1
  have hT : 0 < fl.nthr := by omega
  dsimp only
  by_cases hmc : t.mc = 0
  · refine (good_collect (Q := fun _ _ => True) _ fun i hi => ?_).bind fun r hr => ?_
    · exfalso
      unfold count blockSize at hi
      rw [hmc] at hi
      have : (0 + fl.nthr - 1) / fl.nthr = 0 := Nat.div_eq_of_lt (by omega)
      rw [this] at hi
      simp at hi
    · cases r with
      | none => intro f hf; simp at hf
      | some l =>
        have hc0 : count t.mc fl.nthr = 0 := by
          unfold count blockSize
          rw [hmc]
          have : (0 + fl.nthr - 1) / fl.nthr = 0 := Nat.div_eq_of_lt (by omega)
          rw [this]
        intro f hf
        obtain rfl := Option.some.inj hf
        rw [hc0]
        refine TwOK_spawn (a := fun _ => 0) (s := fun _ => 0) S hsh (by intro k hk; omega) (by intro l h1 h2; omega) (by intro k hk; omega) (by intro k hk; omega)
  have hn : 0 < t.mc := Nat.pos_of_ne_zero hmc
  refine (good_collect (Q := fun i f => TwOK dit { t with mb := t.mb + i * blockSize t.mc fl.nthr, mc := blockLen t.mc fl.nthr i } (iio - rio)
    fun P => f P (P + (iio - rio))) _ fun i hi => ?_).bind fun r hr => ?_
  · have e := (block_end hn hT hi).1
    exact good_withNthr (hw { t with mb := t.mb + i * blockSize t.mc fl.nthr, mc := blockLen t.mc fl.nthr i } rio iio _ hr hm0 hirs hors hms hivs hovs
      (by simp only; omega) hsh)
  · cases r with
    | none => intro f hf; simp at hf
    | some l =>
      intro f hf
      obtain rfl := Option.some.inj hf
      obtain ⟨hlen, hq⟩ := hr l rfl
      refine TwOK_spawn (a := fun k => t.mb + k * blockSize t.mc fl.nthr) (s := fun k => blockLen t.mc fl.nthr k) S hsh ?_ ?_ ?_ ?_
        (f := fun i P => nth l i fun c => c P (P + (iio - rio)))
      · intro k hk
        have e := (block_end hn hT hk).1
        omega
      · intro x h1 h2
        obtain ⟨y, rfl⟩ := Nat.exists_eq_add_of_le h1
        obtain ⟨k, hk, h3, h4⟩ := block_mem hn hT (show y < t.mc by omega)
        exact ⟨k, hk, by omega, by omega⟩
      · intro k hk k' hk' x h1 h2 h3 h4
        obtain ⟨y, rfl⟩ := Nat.exists_eq_add_of_le (show t.mb ≤ x by omega)
        exact block_unique hn hT hk hk' (l := y) (by omega) (by omega) (by omega) (by omega)
      · intro k hk
        obtain ⟨c, hc, hrun⟩ := nth_eq (l := l) (i := k) (by omega)
        have := hq k c hc
        have e : (fun P : Ptr => nth l k fun c => c P (P + (iio - rio))) = fun P => c P (P + (iio - rio)) := by
          funext P st; exact hrun _ st
        rw [e]
        exact this

variable [CLib]

theorem thrCt_sound (S : Sched) (rdx : ℤ) (dec : Dec) (mkcldw : Inferior) (taste : Taste) (hw : Inferior.Sound (decide (dec = .dit)) mkcldw) :
    (thrCt S rdx dec mkcldw taste).Sound :=
  ctWith_sound (fun fl => nd_nthr fl _) rdx dec _ taste (thrInferior_sound S hw)

end FFTW.DftS

namespace FFTW.Spec
open FFTW.Tensor FFTW.Thr

/-- blocks of columns of a halfcomplex array, done in any order -/
theorem HcOK_spawn (S : Sched) {fwd : Bool} {t : HcP} {N : ℕ} {a s : ℕ → ℕ} {f : ℕ → Ptr → State → State}
    (hin : ∀ k < N, t.mb ≤ a k ∧ a k + s k ≤ t.mb + t.mc)
    (hcov : ∀ l, t.mb ≤ l → l < t.mb + t.mc → ∃ k < N, a k ≤ l ∧ l < a k + s k)
    (hdis : ∀ k < N, ∀ k' < N, ∀ l, a k ≤ l → l < a k + s k → a k' ≤ l → l < a k' + s k' → k = k')
    (hloc : ∀ u u' : ℕ → ℝ, ∀ p < t.r * t.m, (∀ p' < t.r * t.m, hcCol t.m p' = hcCol t.m p → u p' = u' p') → hcStep fwd t.r t.m u p = hcStep fwd t.r t.m u' p)
    (h : ∀ k < N, HcOK fwd { t with mb := a k, mc := s k } (f k)) :
    HcOK fwd t (fun P st => spawn S N (fun k => f k P) st) := by
  intro hn P st hP
  obtain ⟨σ, h1, h2, h3⟩ := spawn_forN S N st
  simp only [h3]
  have hσi : ∀ k < N, ∀ k' < N, σ k = σ k' → k = k' := by
    have hnd : ((Multiset.range N).map σ).Nodup := by rw [h2]; exact Multiset.nodup_range N
    intro k hk k' hk' e
    exact Multiset.inj_on_of_nodup_map hnd k (Multiset.mem_range.2 hk) k' (Multiset.mem_range.2 hk') e
  have hσs : ∀ k < N, ∃ k' < N, σ k' = k := by
    intro k hk
    have : k ∈ (Multiset.range N).map σ := by rw [h2]; exact Multiset.mem_range.2 hk
    obtain ⟨k', hk', rfl⟩ := Multiset.mem_map.1 this
    exact ⟨k', Multiset.mem_range.1 hk', rfl⟩
  have hinj : ∀ i < t.v, ∀ i' < t.v, ∀ p < t.r * t.m, ∀ p' < t.r * t.m, t.at P i p = t.at P i' p' → p = p' := by
    intro i hi i' hi' p hp p' hp' e
    replace e := Ptr.add_inj.1 e
    have e1 : ((i : ℕ) : ℤ) * t.vs ∈ offs [(t.v, t.vs)] := mem_offs_cons.2 ⟨i, hi, 0, by simp [offs], by ring⟩
    have e2 : ((i' : ℕ) : ℤ) * t.vs ∈ offs [(t.v, t.vs)] := mem_offs_cons.2 ⟨i', hi', 0, by simp [offs], by ring⟩
    exact (offs_cons_inj hn hp hp' e1 e2 e).1
  have key := forN_local (N := N) (f := fun k => f (σ k) P) (st := st)
    (W := fun k q => ∃ i < t.v, ∃ p < t.r * t.m, a (σ k) ≤ hcCol t.m p ∧ hcCol t.m p < a (σ k) + s (σ k) ∧ q = t.at P i p)
    (Q := fun k m1 m2 => ∀ i < t.v, ∀ p < t.r * t.m, a (σ k) ≤ hcCol t.m p → hcCol t.m p < a (σ k) + s (σ k) →
      m2 (t.at P i p) = hcStep fwd t.r t.m (fun p => m1 (t.at P i p)) p)
    ?_ ?_ ?_ ?_
  · obtain ⟨k1, k2⟩ := key
    refine ⟨k1.mono fun q _ hq => ?_, ?_⟩
    · obtain ⟨k, hk, i, hi, p, hp, hl, hl2, rfl⟩ := hq
      obtain ⟨b1, b2⟩ := hin (σ k) (h1 k hk)
      exact ⟨i, hi, p, hp, by omega, by omega, rfl⟩
    · intro i hi p hp hl hl2
      obtain ⟨k, hk, e1, e2⟩ := hcov _ hl hl2
      obtain ⟨k', hk', rfl⟩ := hσs k hk
      exact k2 k' hk' i hi p hp e1 e2
  · intro k hk st' hst'
    exact h (σ k) (h1 k hk) hn P st' (lt_of_lt_of_le hP hst')
  · intro k hk m1 m2 m1' m2' e1 e2 hQ i hi p hp hl hl2
    rw [← e2 _ ⟨i, hi, p, hp, hl, hl2, rfl⟩, hQ i hi p hp hl hl2]
    apply hloc _ _ p hp
    intro p' hp' ec
    exact e1 _ ⟨i, hi, p', hp', by omega, by omega, rfl⟩
  · rintro k hk k' hk' hne q ⟨i, hi, p, hp, hl, hl2, rfl⟩ ⟨i', hi', p', hp', hl', hl2', e⟩
    have := hinj i hi i' hi' p hp p' hp' e
    subst this
    exact hne (hσi k hk k' hk' (hdis _ (h1 k hk) _ (h1 k' hk') _ hl hl2 hl' hl2'))
  · rintro k hk q ⟨i, hi, p, hp, hl, hl2, rfl⟩
    exact hP

end FFTW.Spec

namespace FFTW.RdftS
open Tensor Spec Thr DftS

theorem thrHInferior_sound (S : Sched) {mk : HInferior} (hw : HInferior.Sound mk) : HInferior.Sound (thrHInferior S mk) := by
  intro fwd t IO fl hr hm0 hn hm
  unfold thrHInferior
  split
  rotate_left
  · intro f hf; simp at hf
  rename_i hT1
  have hT : 0 < fl.nthr := by omega
  dsimp only
  refine (good_collect (Q := fun i f => HcOK fwd { t with mb := t.mb + i * blockSize t.mc fl.nthr, mc := blockLen t.mc fl.nthr i } f) _ fun i hi => ?_).bind fun r hr => ?_
  · obtain ⟨e, e'⟩ := block_end hn hT hi
    exact good_withNthr (hw fwd { t with mb := t.mb + i * blockSize t.mc fl.nthr, mc := blockLen t.mc fl.nthr i } IO _ hr hm0 e' (by simp only; omega))
  · cases r with
    | none => intro f hf; simp at hf
    | some l =>
      intro f hf
      obtain rfl := Option.some.inj hf
      obtain ⟨hlen, hq⟩ := hr l rfl
      refine HcOK_spawn (a := fun k => t.mb + k * blockSize t.mc fl.nthr) (s := fun k => blockLen t.mc fl.nthr k) S ?_ ?_ ?_ ?_ ?_
        (f := fun i P => nth l i fun c => c P)
      · intro k hk
        have e := (block_end hn hT hk).1
        omega
      · intro x h1 h2
        obtain ⟨y, rfl⟩ := Nat.exists_eq_add_of_le h1
        obtain ⟨k, hk, h3, h4⟩ := block_mem hn hT (show y < t.mc by omega)
        exact ⟨k, hk, by omega, by omega⟩
      · intro k hk k' hk' x h1 h2 h3 h4
        obtain ⟨y, rfl⟩ := Nat.exists_eq_add_of_le (show t.mb ≤ x by omega)
        exact block_unique hn hT hk hk' (l := y) (by omega) (by omega) (by omega) (by omega)
      · intro u u' p hp h
        exact hcStep_congr (by omega) (by omega) hp h
      · intro k hk
        obtain ⟨c, hc, hrun⟩ := nth_eq (l := l) (i := k) (by omega)
        have := hq k c hc
        have e : (fun P : Ptr => nth l k fun c => c P) = c := by
          funext P st; exact hrun _ st
        rw [e]
        exact this

variable [CLib]

theorem thrHc2hc_sound (S : Sched) (rdx : ℤ) (mkcldw : HInferior) (taste : Taste) (hw : HInferior.Sound mkcldw) : (thrHc2hc S rdx mkcldw taste).Sound :=
  hc2hcWith_sound (fun fl => nd_nthr fl _) rdx _ taste (thrHInferior_sound S hw)

end FFTW.RdftS
