import Verif.Model.GenfftCodelets
import Verif.Proofs.Genfft3
import Verif.Proofs.CodeletsTw

namespace FFTW.Genfft
open Finset FFTW.Spec FFTW.Tensor FFTW.DftS

theorem ω_cis (n a : ℕ) : ω n ^ a = cis n (-a) := by
  rw [ω_pow, cis]; congr 1; push_cast; ring

theorem dftSum_ω (n : ℕ) (x : Signal) (k : ℕ) : dftSum (-1) n x k = ∑ j ∈ range n, ω n ^ (j * k) * x j := by
  unfold dftSum
  refine sum_congr rfl fun j _ => ?_
  rw [ω_cis]; congr 2; push_cast; ring

theorem dft_ω {mp : Magic} (hmp : mp.Ok) {n k : ℕ} (hk : k < n) (x : Signal) : dft mp (-1) n x k = ∑ j ∈ range n, ω n ^ (j * k) * x j := by
  rw [dft_ok mp hmp n (-1) (Or.inr rfl) x k hk, dftSum_ω]

theorem fixed_eq {d x : ℤ} (h : okStride d x = true) : fixed d x = x := by
  unfold okStride at h
  unfold fixed
  simp only [Bool.or_eq_true, decide_eq_true_eq] at h
  split
  · rfl
  · rcases h with h | h
    · contradiction
    · exact h

/-- storing a whole signal -/
theorem stores_ok {O : Ptr} {δ s : ℤ} {n : ℕ} (h : PInj δ s n) (X : Signal) (st : State) :
    Frame st (forN n (fun k st => (st.set (O + (k : ℤ) * s) (X k).re).set (O + δ + (k : ℤ) * s) (X k).im) st)
      (fun q => ∃ c k : ℕ, c < 2 ∧ k < n ∧ q = O + ((c : ℤ) * δ + (k : ℤ) * s)) ∧
    ∀ k < n, (val (forN n (fun k st => (st.set (O + (k : ℤ) * s) (X k).re).set (O + δ + (k : ℤ) * s) (X k).im) st).mem O δ ((k : ℤ) * s) : ℂ) = X k := by
  have hb : ∀ (k : ℕ) (st : State), (st.set (O + (k : ℤ) * s) (X k).re).set (O + δ + (k : ℤ) * s) (X k).im = put O δ (k * s) (X k) st := by
    intro k st; rw [put, Ptr.add_add]
  simp only [hb]
  have key := forN_inv (P := fun i st' => Frame st st' (fun q => ∃ c k : ℕ, c < 2 ∧ k < n ∧ q = O + ((c : ℤ) * δ + (k : ℤ) * s)) ∧
    ∀ k < i, (val st'.mem O δ ((k : ℤ) * s) : ℂ) = X k) (n := n) (f := fun k st => put O δ (k * s) (X k) st) (st := st)
    ⟨Frame.refl _ _, fun k hk => absurd hk (by omega)⟩ (by
      intro i hi st' ⟨h1, h2⟩
      refine ⟨h1.trans (put_frame hi _ _) (fun q _ h => h) (fun q _ h => h), ?_⟩
      intro k hk
      rw [put_val h hi (by omega)]
      split
      · subst_vars; rfl
      · exact h2 k (by omega))
  exact key

theorem array_eq {α : Type} [Zero α] {n : ℕ} {f : ℕ → α} {i : ℕ} (h : i < n) : array n f i = f i := if_pos h

/-- one iteration of `notw` -/
theorem GOK_step {mp : Magic} (hmp : mp.Ok) (n : ℕ) (is os δi δo : ℤ) (inpl : Bool) :
    GOK dftK [(⟨n, is, os⟩, ())] (some []) δi δo inpl true
      fun I O st => codeletStep n (dft mp (-1) n) I (I + δi) O (O + δo) is os st := by
  apply GOK_rank1
  intro ho _ I O st hI hO _ _
  unfold codeletStep
  dsimp only
  obtain ⟨h1, h2⟩ := stores_ok (O := O) (δ := δo) (s := os) (n := n) ho
    (dft mp (-1) n (array n fun j => ⟨st.mem (I + (j : ℤ) * is), st.mem (I + δi + (j : ℤ) * is)⟩)) st
  refine ⟨h1.mono fun q _ hq => Or.inl hq, ?_⟩
  intro k hk
  rw [h2 k hk, dft_ω hmp hk]
  refine sum_congr rfl fun j hj => ?_
  rw [array_eq (mem_range.1 hj), val_c, Ptr.add_add]

theorem pairs_one (a b : ℤ) : pairs (some [⟨1, a, b⟩]) = pairs (some []) := by
  rw [pairs_cons]; simp
  exact (Multiset.map_congr rfl fun x _ => zero_add x).trans (Multiset.map_id _)

theorem pairs_zero (a b : ℤ) : pairs (some [⟨0, a, b⟩]) = 0 := by
  rw [pairs_cons]; simp

theorem GOK_notw {mp : Magic} (hmp : mp.Ok) (n : ℕ) (is os δi δo : ℤ) (vl : ℕ) (ivs ovs : ℤ) (inpl : Bool)
    (h : inpl = true → vl ≤ 1 ∨ is = os ∧ ivs = ovs) :
    GOK dftK [(⟨n, is, os⟩, ())] (some [⟨vl, ivs, ovs⟩]) δi δo inpl true
      fun I O st => forN vl (fun i st => codeletStep n (dft mp (-1) n)
        (I + (i : ℤ) * ivs) (I + δi + (i : ℤ) * ivs) (O + (i : ℤ) * ovs) (O + δo + (i : ℤ) * ovs) is os st) st := by
  rcases (by omega : vl = 0 ∨ vl = 1 ∨ 2 ≤ vl) with rfl | rfl | hv
  · exact GOK_empty (pairs_zero _ _) _ _ _ _
  · refine ((GOK_step hmp n is os δi δo inpl).vec_congr (pairs_one _ _)).congr ?_
    intro I O st
    simp [forN, iter, Ptr.add_zero]
  · by_cases hi : inpl = true
    · have h' : is = os ∧ ivs = ovs := (h hi).resolve_left (by omega)
      obtain ⟨rfl, rfl⟩ := h'
      intro wf
      have hδ : δi = δo := wf.delta hi
      subst hδ
      refine ((GOK_loop (d := ⟨vl, ivs, ivs⟩) (GOK_step hmp n is is δi δi inpl) (fun _ => ?_) (fun _ => rfl)).congr ?_) wf
      · exact ins_eq_outs_of_strides (by simp) (by simp)
      · intro I O st
        refine forN_congr (fun i _ st => ?_) st
        simp only [Ptr.add_add, add_comm]
    · refine (GOK_loop (d := ⟨vl, ivs, ovs⟩) (GOK_step hmp n is os δi δo inpl) (fun h => absurd h hi) (fun h => absurd h hi)).congr ?_
      intro I O st
      refine forN_congr (fun i _ st => ?_) st
      simp only [Ptr.add_add, add_comm]

/-- the contract, for codelets that are not specialised to output strides -/
theorem notw_sound (mp : Magic) (hmp : mp.Ok) (n : ℕ) (dis divs : ℤ) : (notw mp n dis 0 divs 0).Sound where
  run := by
    intro ri ii ro io is os vl ivs ovs fl hok inpl hi
    simp only [notw, Bool.and_eq_true] at hok ⊢
    obtain ⟨⟨⟨h1, h2⟩, h3⟩, h4⟩ := hok
    rw [fixed_eq h1, fixed_eq h2, fixed_eq h3, fixed_eq h4]
    exact GOK_notw hmp n is os _ _ vl ivs ovs inpl hi
  one := by
    intro ri ii ro io is os fl hok inpl
    simp only [notw, Bool.and_eq_true] at hok ⊢
    obtain ⟨⟨⟨h1, h2⟩, h3⟩, h4⟩ := hok
    rw [fixed_eq h1, fixed_eq h2, fixed_eq h3, fixed_eq h4]
    exact GOK_notw hmp n is os _ _ 1 0 0 inpl (fun _ => Or.inl le_rfl)
  inBuf := by
    intro ro io is os vl ovs fl hok _ _
    simp only [notw, Bool.and_eq_true] at hok ⊢
    obtain ⟨⟨⟨h1, h2⟩, h3⟩, h4⟩ := hok
    rw [fixed_eq h1, fixed_eq h3, show fixed 0 is = is from rfl, show fixed 0 2 = 2 from rfl]
    exact GOK_notw hmp n is is _ _ vl 2 2 true (fun _ => Or.inr ⟨rfl, rfl⟩)

end FFTW.Genfft
