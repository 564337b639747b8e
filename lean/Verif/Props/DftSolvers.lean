import Verif.Proofs.DftwGenericbuf
import Verif.Proofs.DftSolvers
import Verif.Proofs.DftGeneric
import Verif.Proofs.DftwGeneric
import Verif.Props.Tensor
import Verif.Props.Primes

/-!
# C42, C45: Cooley-Tukey and the generic odd-size algorithm
-/

namespace FFTW.DftS
open Tensor Spec

variable [CLib]

/-- exact sines and cosines exist, so the hypotheses `ExactCexp cexp` below can be met -/
theorem exactCexp_inhabited : ∃ cexp, ExactCexp cexp :=
  ⟨fun n m => (Real.cos (2 * Real.pi * m / n), Real.sin (2 * Real.pi * m / n)), fun _ _ _ _ _ => rfl⟩

/-! ### C45 -/

/-- C45 in elementary terms: run on split arrays (real and imaginary parts `δi` resp. `δo` apart), for every odd `n`, all strides and
every memory, in place or not, the generic algorithm stores at `k*os` the number `∑_j exp(-2πi jk/n) x_j`, `x_j` being the *old* contents
at `j*is`; nothing else changes.  The only hypothesis is that the output locations are distinct. -/
theorem C45_generic_computes_dft {cexp : ℕ → ℤ → ℝ × ℝ} (hc : ExactCexp cexp) (n : ℕ) (hn : n % 2 = 1) (is os δi δo : ℤ) (I O : Ptr) (st : State)
    (hI : I.blk < st.next) (hO : O.blk < st.next)
    (hout : ∀ c c' k k' : ℕ, c < 2 → c' < 2 → k < n → k' < n → (c : ℤ) * δo + k * os = (c' : ℤ) * δo + k' * os → c = c' ∧ k = k')
    (hdis : ∀ c c' k k' : ℕ, c < 2 → c' < 2 → k < n → k' < n → I + ((c : ℤ) * δi + (k : ℤ) * is) ≠ O + ((c' : ℤ) * δo + (k' : ℤ) * os)) :
    let st' := genericApply (genericW cexp n) n is os I (I + δi) O (O + δo) st
    (∀ k < n, (⟨st'.mem (O + (k : ℤ) * os), st'.mem (O + (δo + (k : ℤ) * os))⟩ : ℂ) =
      ∑ j ∈ Finset.range n, Complex.exp (-(2 * Real.pi * Complex.I) / n) ^ (j * k) * ⟨st.mem (I + (j : ℤ) * is), st.mem (I + (δi + (j : ℤ) * is))⟩) ∧
    ∀ q : Ptr, q.blk < st.next → (∀ k < n, q ≠ O + (k : ℤ) * os ∧ q ≠ O + (δo + (k : ℤ) * os)) → st'.mem q = st.mem q := by
  intro st'
  have h := genericApply_ok hc ⟨n, is, os⟩ hn δi δo false true
  have wf : WF ℂ [((⟨n, is, os⟩ : Dim), ())] (some []) δi δo false true := by
    refine ⟨?_, by simp, by simp, by simp⟩
    show (offs [(2, δo), (n, os)]).Nodup
    have e : offs [(2, δo), (n, os)] = (Multiset.range 2).bind fun c => (Multiset.range n).map fun k : ℕ => (c : ℤ) * δo + (k : ℤ) * os := by
      simp only [offs, Multiset.map_singleton, Multiset.bind_singleton, Multiset.map_map, Function.comp_def, nsmul_eq_mul, add_zero]
    rw [e, Multiset.nodup_bind]
    refine ⟨fun c hc => ?_, (Multiset.nodup_range 2).pairwise fun c hc c' hc' hne => Multiset.disjoint_left.2 ?_⟩
    · refine Multiset.Nodup.map_on ?_ (Multiset.nodup_range n)
      intro k hk k' hk' he
      exact (hout c c k k' (Multiset.mem_range.1 hc) (Multiset.mem_range.1 hc) (Multiset.mem_range.1 hk) (Multiset.mem_range.1 hk') he).2
    · intro x hx hx'
      obtain ⟨k, hk, rfl⟩ := Multiset.mem_map.1 hx
      obtain ⟨k', hk', he⟩ := Multiset.mem_map.1 hx'
      exact hne (hout c' c k' k (Multiset.mem_range.1 hc') (Multiset.mem_range.1 hc) (Multiset.mem_range.1 hk') (Multiset.mem_range.1 hk) he).1.symm
  have hcp : Compat (locT ℂ δi δo [((⟨n, is, os⟩ : Dim), ())] (some [])) false I O st := by
    refine ⟨hI, hO, by simp, fun _ a ha b hb => ?_⟩
    have ha : a ∈ offs [(2, δi), (n, is)] := ha
    have hb : b ∈ offs [(2, δo), (n, os)] := hb
    rw [mem_offs2] at ha hb
    obtain ⟨c, hc, k, hk, rfl⟩ := ha
    obtain ⟨c', hc', k', hk', rfl⟩ := hb
    exact hdis c c' k k' hc hc' hk hk'
  obtain ⟨hf, hv⟩ := h wf I O st hcp
  constructor
  · intro k hk
    have := hv [((⟨n, is, os⟩, ()), k)] ⟨rfl, by simpa using hk⟩ (0, 0) (by simp [pairs, offs])
    simpa [gOut, gSum, val, Elt.dec, dftK, ω] using this
  · intro q hq hne
    refine hf.mem q hq ?_
    rintro (⟨b, hb, rfl⟩ | ⟨h, _⟩)
    · have hb : b ∈ offs [(2, δo), (n, os)] := hb
      rw [mem_offs2] at hb
      obtain ⟨c, hc, k, hk, rfl⟩ := hb
      rcases (by omega : c = 0 ∨ c = 1) with rfl | rfl
      · exact (hne k hk).1 (by simp)
      · exact (hne k hk).2 (by simp)
    · simp at h

/-- C45: every plan the solver makes, whatever the planner's flags, is correct for its problem (in place included), and never writes
its input -/
theorem C45_generic_solver {cexp : ℕ → ℤ → ℝ × ℝ} (hc : ExactCexp cexp) (taste : Taste) : (generic cexp taste).Sound := generic_sound hc taste

/-- it does make plans -/
example (cexp : ℕ → ℤ → ℝ × ℝ) (fl : Flags) : ∃ f, (generic cexp fun _ _ => true).mkplan
    (.dft ⟨[⟨7, 2, 2⟩], some [], ⟨0, 0⟩, ⟨0, 1⟩, ⟨1, 0⟩, ⟨1, 1⟩⟩) fl = .ret (some (.dft f)) := by
  have h7 : Primes.isPrime 7 = some true := by
    rw [Primes.isPrime_some (by norm_num)]; simpa using (by norm_num : Nat.Prime 7)
  refine ⟨genericApply (genericW cexp 7) 7 2 2, ?_⟩
  simp [generic, dftSolver, h7]

/-! ### C42 -/

/-- C42, the index arithmetic of decimation in time: `r` interleaved transforms of size `m` followed by the twiddle step are the DFT of
size `r*m` -/
theorem C42_dit_identity (r m : ℕ) (hr : r ≠ 0) (hm : m ≠ 0) (k l : ℕ) (x : ℕ → ℂ) :
    ∑ j ∈ Finset.range r, ω r ^ (j * k) * (ω (r * m) ^ (j * l) * ∑ q ∈ Finset.range m, ω m ^ (q * l) * x (q * r + j)) =
      ∑ j ∈ Finset.range (r * m), ω (r * m) ^ (j * (k * m + l)) * x j := by
  simpa [twStep] using ct_dit r m hr hm k l x

/-- C42, the index arithmetic of decimation in frequency -/
theorem C42_dif_identity (r m : ℕ) (hr : r ≠ 0) (hm : m ≠ 0) (q k : ℕ) (x : ℕ → ℂ) :
    ∑ l ∈ Finset.range m, ω m ^ (l * q) * (ω (r * m) ^ (k * l) * ∑ j ∈ Finset.range r, ω r ^ (j * k) * x (j * m + l)) =
      ∑ j ∈ Finset.range (r * m), ω (r * m) ^ (j * (q * r + k)) * x j := by
  simpa [twStep] using ct_dif r m hr hm q k x

/-- C42 at memory level: for every radix request, decimation in time, in frequency, and in frequency with transposition, every plan the
Cooley-Tukey solver makes for any problem (any strides, batch, in place or not) is correct, provided the twiddle step and the
sub-transforms it was given are.  With input preservation requested, the input is not written. -/
theorem C42_ct_solver (rdx : ℤ) (dec : Dec) (mkcldw : Inferior) (taste : Taste) (hw : Inferior.Sound (decide (dec = .dit)) mkcldw) :
    (ct rdx dec mkcldw taste).Sound := ct_sound rdx dec mkcldw taste hw

/-- C42: the generic twiddle step (multiply by the table, then or before a batch of transforms of size `r`) is correct for every `r`, `m`,
range of columns and batch, given exact sines and cosines -/
theorem C42_twiddle_step_generic {cexp : ℕ → ℤ → ℝ × ℝ} (hc : ExactCexp cexp) (dec : Dec) (taste : TwP → Flags → Bool) :
    Inferior.Sound (decide (dec = .dit)) (dftwGeneric cexp dec taste) := dftwGeneric_sound hc dec taste

/-- C42, no hypotheses on sub-programs left: Cooley-Tukey with the generic twiddle step -/
theorem C42_ct_generic {cexp : ℕ → ℤ → ℝ × ℝ} (hc : ExactCexp cexp) (rdx : ℤ) (dec : Dec) (taste : Taste) (taste' : TwP → Flags → Bool) :
    (ct rdx dec (dftwGeneric cexp dec taste') taste).Sound := ct_sound _ _ _ _ (dftwGeneric_sound hc dec taste')

/-- C42: the buffered twiddle step (multiply by rotating, batch by batch, into a buffer; transform there; copy back) -/
theorem C42_twiddle_step_genericbuf {cexp : ℕ → ℤ → ℝ × ℝ} (hc : ExactCexp cexp) (batchsz : ℕ) (taste : TwP → Flags → Bool) :
    Inferior.Sound true (dftwGenericbuf cexp batchsz taste) := dftwGenericbuf_sound hc batchsz taste

/-- C42, no hypotheses on sub-programs left: Cooley-Tukey with the buffered twiddle step -/
theorem C42_ct_genericbuf {cexp : ℕ → ℤ → ℝ × ℝ} (hc : ExactCexp cexp) (rdx : ℤ) (batchsz : ℕ) (taste : Taste) (taste' : TwP → Flags → Bool) :
    (ct rdx .dit (dftwGenericbuf cexp batchsz taste') taste).Sound := ct_sound _ _ _ _ (dftwGenericbuf_sound hc batchsz taste')

/-- answer every request for a child plan with `c` -/
def _root_.FFTW.Mk.answer {α : Type} (c : Plan) : Mk α → α
  | .ret a => a
  | .plan _ _ k => (k (some c)).answer c

/-- it does make plans: size 15, in place, batch of 4, radix 3 -/
example (cexp : ℕ → ℤ → ℝ × ℝ) (fl : Flags) (c : Plan) :
    (((ct 3 .dit (dftwGeneric cexp .dit fun _ _ => true) fun _ _ => true).mkplan
      (.dft ⟨[⟨15, 2, 2⟩], some [⟨4, 30, 30⟩], ⟨0, 0⟩, ⟨0, 1⟩, ⟨0, 0⟩, ⟨0, 1⟩⟩) fl).answer c).isSome = true := by
  have h3 : Primes.chooseRadix 3 15 = some 3 := by rw [Primes.chooseRadix_pos (by norm_num) (by norm_num) (by unfold INT_MAX; norm_num)]; rfl
  simp [ct, ctWith, dftSolver, tornk1, h3, Mk.needW, dftwGeneric, Mk.need, Mk.bind, Mk.answer]
example (cexp : ℕ → ℤ → ℝ × ℝ) (fl : Flags) (c : Plan) :
    (((ct 64 .dit (dftwGenericbuf cexp 4 fun _ _ => true) fun _ _ => true).mkplan
      (.dft ⟨[⟨64 * 100, 2, 2⟩], some [], ⟨0, 0⟩, ⟨0, 1⟩, ⟨0, 0⟩, ⟨0, 1⟩⟩) fl).answer c).isSome = true := by
  have h3 : Primes.chooseRadix 64 6400 = some 64 := by rw [Primes.chooseRadix_pos (by norm_num) (by norm_num) (by unfold INT_MAX; norm_num)]; rfl
  simp [ct, ctWith, dftSolver, tornk1, h3, Mk.needW, dftwGenericbuf, Mk.need, Mk.bind, Mk.answer]

end FFTW.DftS
