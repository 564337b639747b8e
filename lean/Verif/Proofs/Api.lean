import Verif.Proofs.Planner3
import Verif.Proofs.Planner4
import Verif.Props.MapFlags

namespace FFTW.Planner
open MapFlags (U32 FFTW_ESTIMATE FFTW_PATIENT FFTW_EXHAUSTIVE FFTW_PRESERVE_INPUT FFTW_DESTROY_INPUT)

/-- `g` and `f` agree except for the patience bits -/
def SameWish (g f : U32) : Prop := ∀ i, i ≠ 3 → i ≠ 5 → i ≠ 6 → g.getLsbD i = f.getLsbD i

theorem SameWish.refl (f : U32) : SameWish f f := fun _ _ _ _ => rfl
theorem SameWish.trans {a b c : U32} (h : SameWish a b) (h' : SameWish b c) : SameWish a c := fun i h1 h2 h3 => (h i h1 h2 h3).trans (h' i h1 h2 h3)

theorem patmask_eq : (FFTW_ESTIMATE ||| FFTW_MEASURE ||| FFTW_PATIENT ||| FFTW_EXHAUSTIVE : U32) = 0x68#32 := by decide
theorem patmask_eq' : (FFTW_MEASURE ||| FFTW_PATIENT ||| FFTW_EXHAUSTIVE : U32) = 0x28#32 := by decide
theorem lit_bit (n : ℕ) (h : n ∣ 0x68) (h1 : n < 256) : ∀ i, i ≠ 3 → i ≠ 5 → i ≠ 6 → (BitVec.ofNat 32 (0x68 &&& n)).getLsbD i = false := by
  intro i h3 h5 h6
  by_cases hi : i < 32
  · rw [BitVec.getLsbD_ofNat]
    simp only [Nat.testBit_and]
    have : Nat.testBit 104 i = false := by
      interval_cases i <;> first | rfl | omega
    simp [this]
  · exact BitVec.getLsbD_of_ge _ _ (by omega)

theorem bit68 : ∀ i, i ≠ 3 → i ≠ 5 → i ≠ 6 → (0x68#32).getLsbD i = false := by
  intro i h3 h5 h6
  by_cases hi : i < 32
  · interval_cases i <;> first | rfl | omega
  · exact BitVec.getLsbD_of_ge _ _ (by omega)

theorem bit_sub {x : U32} (h : x &&& 0x68#32 = x) : ∀ i, i ≠ 3 → i ≠ 5 → i ≠ 6 → x.getLsbD i = false := by
  intro i h3 h5 h6
  rw [← h, BitVec.getLsbD_and, bit68 i h3 h5 h6, Bool.and_false]

theorem SameWish.clear {x : U32} (h : x &&& 0x68#32 = x) (f : U32) : SameWish (f &&& ~~~ x) f := by
  intro i h3 h5 h6
  rw [BitVec.getLsbD_and, BitVec.getLsbD_not, bit_sub h i h3 h5 h6]
  by_cases hi : i < 32
  · simp [hi]
  · simp [BitVec.getLsbD_of_ge f i (by omega)]

theorem SameWish.set {x : U32} (h : x &&& 0x68#32 = x) (f : U32) : SameWish (f ||| x) f := by
  intro i h3 h5 h6
  rw [BitVec.getLsbD_or, bit_sub h i h3 h5 h6, Bool.or_false]

theorem forceEstimator_wish (f : U32) : SameWish (forceEstimator f) f := by
  unfold forceEstimator
  rw [patmask_eq']
  exact (SameWish.set (by decide) _).trans (SameWish.clear (by decide) f)

theorem patLevels_wish (tl : ℝ) (f : U32) : ∀ x ∈ patLevels tl f, x &&& 0x68#32 = x := by
  intro x hx
  unfold patLevels at hx
  have := List.mem_of_mem_take (List.mem_of_mem_drop hx)
  simp only [List.mem_cons, List.not_mem_nil, or_false] at this
  rcases this with rfl | rfl | rfl | rfl <;> decide

/-- every `mkplan0` answer satisfies `Q` -/
def AllMk (env : Env) (n : ℕ) (tl : ℝ) (flags : U32) (p : Problem) (Q : Option Plan → Prop) : Prop :=
  ∀ g hi w st r st', SameWish g flags → mkplan0 env n tl g p hi w st = .ok (r, st') → Q r

theorem bind_ok {α β : Type} {x : Res α} {f : α → Res β} {b : β} (h : (x >>= f) = .ok b) : ∃ a, x = .ok a ∧ f a = .ok b := by
  cases x with
  | error e => simp [bind, Except.bind] at h
  | ok a => exact ⟨a, rfl, h⟩

theorem pure_ok {α : Type} {a b : α} (h : (pure a : Res α) = .ok b) : a = b := by
  simpa [pure, Except.pure] using h

theorem retryBogus_ind {env : Env} {n : ℕ} {tl : ℝ} {flags : U32} {p : Problem} {Q : Option Plan → Prop} (h0 : AllMk env n tl flags p Q)
    {g : U32} (hg : SameWish g flags) {hi : BitVec 3} {st st' : PSt} {pln r : Option Plan} (hq : Q pln)
    (h : retryBogus env n tl g p hi pln st = .ok (r, st')) : Q r := by
  unfold retryBogus at h
  split at h
  · obtain ⟨st1, h1, h⟩ := bind_ok h
    obtain ⟨r2, h2, h⟩ := bind_ok h
    split at h
    · obtain ⟨st3, h3, h⟩ := bind_ok h
      exact h0 _ _ _ _ _ _ ((forceEstimator_wish g).trans hg) h
    · have := pure_ok h
      subst this
      exact h0 _ _ _ _ _ _ hg h2
  · have := pure_ok h
    simp only [Prod.mk.injEq] at this
    rw [← this.1]; exact hq

theorem apiMkplan_ind {env : Env} {n : ℕ} {tl : ℝ} {flags : U32} {p : Problem} {Q : Option Plan → Prop} (h0 : AllMk env n tl flags p Q)
    {g : U32} (hg : SameWish g flags) {hi : BitVec 3} {st st' : PSt} {r : Option Plan} (h : apiMkplan env n tl g p hi st = .ok (r, st')) : Q r := by
  unfold apiMkplan at h
  obtain ⟨⟨a, st1⟩, h1, h⟩ := bind_ok h
  simp only at h
  split at h
  · obtain ⟨⟨b, st2⟩, h2, h⟩ := bind_ok h
    exact retryBogus_ind h0 hg (h0 _ _ _ _ _ _ ((forceEstimator_wish g).trans hg) h2) h
  · exact retryBogus_ind h0 hg (h0 _ _ _ _ _ _ hg h1) h

theorem patLoop_used {env : Env} {n : ℕ} {tl : ℝ} {flags f0 : U32} {p : Problem} (hf : SameWish f0 flags) (L : List U32) (hL : ∀ x ∈ L, x &&& 0x68#32 = x) :
    ∀ {pln : Option Plan} {used : U32} {st : PSt} {r : Option Plan} {used' : U32} {st' : PSt}, (∀ pl, pln = some pl → SameWish used flags) →
      patLoop env n tl f0 p L pln used st = .ok (r, used', st') → ∀ pl, r = some pl → SameWish used' flags := by
  induction L with
  | nil =>
    intro pln used st r used' st' hu h
    simp only [patLoop, Except.ok.injEq, Prod.mk.injEq] at h
    obtain ⟨rfl, rfl, rfl⟩ := h
    exact hu
  | cons x L ih =>
    intro pln used st r used' st' hu h
    rw [patLoop] at h
    cases h1 : apiMkplan env n tl (f0 ||| x) p 0 st with
    | error e => rw [h1] at h; simp at h
    | ok z =>
      obtain ⟨a, st1⟩ := z
      rw [h1] at h
      cases a with
      | none =>
        simp only [Except.ok.injEq, Prod.mk.injEq] at h
        obtain ⟨rfl, rfl, rfl⟩ := h
        exact hu
      | some a =>
        exact ih (fun y hy => hL y (List.mem_cons_of_mem _ hy)) (fun _ _ => (SameWish.set (hL x (List.mem_cons_self ..)) f0).trans hf) h

theorem firstPlan_used {env : Env} {n : ℕ} {tl : ℝ} {flags : U32} {p : Problem} {st : PSt} {r : Option Plan × U32 × PSt}
    (h : firstPlan env n tl flags p st = .ok r) : ∀ pl, r.1 = some pl → SameWish r.2.1 flags := by
  unfold firstPlan at h
  split at h
  · obtain ⟨a, h1, h⟩ := bind_ok h
    have := pure_ok h
    subst this
    exact fun _ _ => SameWish.refl _
  · have hw : SameWish (flags &&& ~~~ (FFTW_ESTIMATE ||| FFTW_MEASURE ||| FFTW_PATIENT ||| FFTW_EXHAUSTIVE)) flags := by
      rw [patmask_eq]; exact SameWish.clear (by decide) flags
    exact patLoop_used hw _ (patLevels_wish tl flags) (by simp) h

theorem mkapiplan_ind {env : Env} {n : ℕ} {tl : ℝ} {flags : U32} {p : Problem} {Q : Option Plan → Prop} (h0 : AllMk env n tl flags p Q) (hn : Q none)
    {st st' : PSt} {r : Option Plan} (h : mkapiplan env n tl flags p st = .ok (r, st')) : Q r := by
  unfold mkapiplan at h
  obtain ⟨a, h1, h⟩ := bind_ok h
  obtain ⟨b, h2, h⟩ := bind_ok h
  obtain ⟨st3, h3, h⟩ := bind_ok h
  have := pure_ok h
  simp only [Prod.mk.injEq] at this
  rw [← this.1]
  unfold recreate at h2
  have hu := firstPlan_used h1
  split at h2
  · rename_i pl he
    obtain ⟨c, h4, h2⟩ := bind_ok h2
    split at h2
    · simp at h2
    · have := pure_ok h2
      subst this
      exact apiMkplan_ind h0 (hu pl he) h4
  · have := pure_ok h2
    subst this
    exact hn

theorem mkplan0_pre (tl : ℝ) (g : U32) : ∃ f, MapFlags.mapflags tl g = some f ∧ LEQ f.l f.u = true := by
  obtain ⟨f, h, h1, _⟩ := Props.C25_upper tl g
  exact ⟨f, h, by simpa [LEQ] using h1⟩

theorem mkplan0_eq {env : Env} {n : ℕ} {tl : ℝ} {g : U32} {p : Problem} {hi : BitVec 3} {w : WState} {st : PSt} {f : MapFlags.PlnrFlags} (hf : MapFlags.mapflags tl g = some f) :
    mkplan0 env n tl g p hi w st = mkplan env n p { st with flags := ⟨f.l, f.u, f.tli, hi⟩, wstate := w } := by
  unfold mkplan0
  rw [hf]; rfl

end FFTW.Planner
