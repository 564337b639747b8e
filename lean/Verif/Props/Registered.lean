import Verif.Props.ApiSplit
import Verif.Props.Codelets
import Verif.Props.Solvers
import Verif.Props.Buffered
import Verif.Props.Rader
import Verif.Props.Tensor

/-!
# The solvers registered by `X(configure_planner)`, api/configure.c

`DftStandard` lists the solvers of dft/conf.c (table `s` and the scalar codelets of dft/scalar/codelets/Makefile.am); each is proved sound
(C04 for the whole library, as far as the lists go), so the API theorems apply with no hypothesis on the solvers.
-/

namespace FFTW.Registered
open Tensor Spec DftS Genfft Planner Api RowMajor
open MapFlags (U32 FFTW_ESTIMATE)

/-- sizes of the codelets n1_*, dft/scalar/codelets/Makefile.am:19-21 -/
def n1 : List ℕ := [2, 3, 4, 5, 6, 7, 8, 9, 10, 11, 12, 13, 14, 15, 16, 32, 64, 20, 25]
/-- t1_*, dft/scalar/codelets/Makefile.am:25-27 -/
def t1 : List ℕ := [2, 3, 4, 5, 6, 7, 8, 9, 10, 12, 15, 16, 32, 64, 20, 25]
/-- t2_*, dft/scalar/codelets/Makefile.am:32-33 -/
def t2 : List ℕ := [4, 8, 16, 32, 64, 5, 10, 20, 25]
/-- q1_*, dft/scalar/codelets/Makefile.am:52 -/
def q1 : List ℕ := [2, 4, 8, 3, 5, 6]

section
variable [CLib]

/-- the solvers registered by `X(dft_conf_standard)`, dft/conf.c:24-42, with the register functions of each file.  `cexp` are the sines and
cosines, `mp` the parameters of genfft, `szR` is `sizeof(R)`; the tests that only say whether a solver is worth trying are arbitrary. -/
inductive DftStandard (cexp : ℕ → ℤ → ℝ × ℝ) (mp : Magic) (szR : ℕ) : Solver → Prop
  | indirect (after : Bool) (taste : Taste) : DftStandard cexp mp szR (indirect after taste)
  | indirectTranspose (taste : Taste) : DftStandard cexp mp szR (indirectTranspose taste)
  | rankGeq2 (d : ℤ) (hd : d ∈ [1, 0, -2]) (taste : Taste) : DftStandard cexp mp szR (rankGeq2 d [1, 0, -2] taste)
  | vrankGeq1 (d : ℤ) (hd : d ∈ [1, -1]) (taste : Taste) : DftStandard cexp mp szR (vrankGeq1 d [1, -1] taste)
  | buffered (i : ℕ) (hi : i < maxnbufs.length) (taste : Taste) : DftStandard cexp mp szR (buffered szR i taste)
  | generic (taste : Taste) : DftStandard cexp mp szR (generic cexp taste)
  | rader (taste : Taste) : DftStandard cexp mp szR (rader cexp taste)
  | bluestein (taste : Taste) : DftStandard cexp mp szR (bluestein cexp taste)
  | nop : DftStandard cexp mp szR nop
  | ctGeneric (dec : Dec) (hd : dec = .dit ∨ dec = .dif) (taste : Taste) (taste' : TwP → Flags → Bool) :
      DftStandard cexp mp szR (ct 0 dec (dftwGeneric cexp dec taste') taste)
  | ctGenericbuf (r : ℤ) (hr : r ∈ [-1, -2, -4, -8, -16, -32, -64]) (b : ℕ) (hb : b ∈ [4, 8, 16, 32, 64]) (taste : Taste) (taste' : TwP → Flags → Bool) :
      DftStandard cexp mp szR (ct r .dit (dftwGenericbuf cexp b taste') taste)
  /-- `X(kdft_register)`, dft/kdft.c:24-28 -/
  | n1 (n : ℕ) (hn : n ∈ n1) : DftStandard cexp mp szR (direct (notw mp n 0 0 0 0))
  | n1buf (n : ℕ) (hn : n ∈ Registered.n1) (taste : Taste) : DftStandard cexp mp szR (directbuf (notw mp n 0 0 0 0) taste)
  /-- `X(kdft_dit_register)`, dft/kdft-dit.c:24-27, `X(regsolver_ct_directw)`, dft/dftw-direct.c:327-332 -/
  | t1 (n : ℕ) (hn : n ∈ t1) (taste : Taste) (taste' : TwP → Flags → Bool) :
      DftStandard cexp mp szR (ct n .dit (dftwDirect cexp (twiddleCodelet mp loadAll true n 0 0) taste') taste)
  | t1buf (n : ℕ) (hn : n ∈ Registered.t1) (taste : Taste) (taste' : TwP → Flags → Bool) :
      DftStandard cexp mp szR (ct n .dit (dftwDirectbuf cexp (twiddleCodelet mp loadAll true n 0 0) taste') taste)
  | t2 (n : ℕ) (hn : n ∈ t2) (taste : Taste) (taste' : TwP → Flags → Bool) :
      DftStandard cexp mp szR (ct n .dit (dftwDirect cexp (twiddleCodelet mp log3Policy true n 0 0) taste') taste)
  | t2buf (n : ℕ) (hn : n ∈ Registered.t2) (taste : Taste) (taste' : TwP → Flags → Bool) :
      DftStandard cexp mp szR (ct n .dit (dftwDirectbuf cexp (twiddleCodelet mp log3Policy true n 0 0) taste') taste)
  /-- `X(kdft_difsq_register)`, dft/kdft-difsq.c:24-27, `X(regsolver_ct_directwsq)`, dft/dftw-directsq.c:158-162 -/
  | q1 (n : ℕ) (hn : n ∈ q1) (taste : Taste) :
      DftStandard cexp mp szR (ct n .difT (dftwDirectsq cexp (twidsqCodelet mp loadAll n 0 0 0)) taste)

/-- C04: every solver in the standard configuration for complex transforms is sound -/
theorem C04_standard_dft_solvers {cexp : ℕ → ℤ → ℝ × ℝ} (hc : ExactCexp cexp) {mp : Magic} (hmp : Props.MagicOk mp) (szR : ℕ) (s : Solver)
    (h : DftStandard cexp mp szR s) : s.Sound := by
  cases h with
  | indirect a t => exact indirect_sound a t
  | indirectTranspose t => exact indirectTranspose_sound t
  | rankGeq2 d _ t => exact rankGeq2_sound _ _ t
  | vrankGeq1 d _ t => exact vrankGeq1_sound _ _ t
  | buffered i _ t => exact buffered_sound _ _ t
  | generic t => exact generic_sound hc t
  | rader t => exact rader_sound hc t
  | bluestein t => exact bluestein_sound hc t
  | nop => exact nop_sound
  | ctGeneric dec _ t t' => exact C42_ct_generic hc 0 dec t t'
  | ctGenericbuf r _ b _ t t' => exact ct_sound _ _ _ _ (dftwGenericbuf_sound hc b t')
  | n1 n _ => exact direct_sound _ (notw_sound mp hmp n 0 0)
  | n1buf n _ t => exact directbuf_sound _ t (notw_sound mp hmp n 0 0)
  | t1 n hn t t' => exact Props.C52_ct_direct cexp _ .dit (Props.C47_twiddle_codelet hc mp hmp _ n (Or.inl ⟨rfl, by revert n; decide⟩) true 0 0) _ t t'
  | t1buf n hn t t' => exact Props.C52_ct_directbuf cexp _ .dit (Props.C47_twiddle_codelet hc mp hmp _ n (Or.inl ⟨rfl, by revert n; decide⟩) true 0 0) _ t t'
  | t2 n hn t t' => exact Props.C52_ct_direct cexp _ .dit (Props.C47_twiddle_codelet hc mp hmp _ n (Or.inr ⟨Or.inr rfl, by revert n; decide⟩) true 0 0) _ t t'
  | t2buf n hn t t' => exact Props.C52_ct_directbuf cexp _ .dit (Props.C47_twiddle_codelet hc mp hmp _ n (Or.inr ⟨Or.inr rfl, by revert n; decide⟩) true 0 0) _ t t'
  | q1 n hn t => exact Props.C52_ct_directsq cexp _ _ (by decide) (Props.C47_twidsq_codelet hc mp hmp _ n (Or.inl ⟨rfl, by revert n; decide⟩) 0 0) _ t

end

/-- exact sines and cosines -/
noncomputable def exCexp (n : ℕ) (m : ℤ) : ℝ × ℝ := (Real.cos (2 * Real.pi * m / n), Real.sin (2 * Real.pi * m / n))
theorem exCexp_exact : ExactCexp exCexp := fun _ _ _ _ _ => rfl
/-- the defaults of genfft/magic.ml -/
def exMp : Magic := {}
theorem exMp_ok : Props.MagicOk exMp := ⟨by decide, by intro p hp; simp [exMp] at hp; subst hp; norm_num⟩

/-! ### a concrete call

`fftw_plan_many_dft(1, {64}, 10, in, NULL, 1, 64, out, NULL, 10, 1, FFTW_BACKWARD, FFTW_ESTIMATE)`, a batch of 10 transforms with the codelet n1_64
registered: it is planned, blessed and returned, so the hypotheses of the API theorems are met -/

attribute [local instance] sortLib

noncomputable def exE : Env := 
  ⟨[⟨direct (notw exMp 64 0 0 0 0), .dft, [110], 0⟩], fun _ _ => ⟨1,2,3,4⟩, 
   ⟨fun _ => false, fun _ => 7, fun _ => false, fun _ => 0, fun _ => false, fun _ _ _ => true, fun _ _ => false⟩⟩
def exT0 : HTab := ⟨List.replicate 5 emptySlot, 0⟩
def exS : PSt := ⟨exT0, exT0, ⟨0, 0, 0, 0⟩, 1, .normal, false, false, 0, 0, 0, 0⟩
def exA : Many := ⟨[64], 10, ⟨0,0⟩, none, 1, 64, ⟨1,0⟩, none, 10, 1, 1⟩
def exP : DftP := ⟨[⟨64, 2, 20⟩], some [⟨10, 128, 2⟩], ⟨0,1⟩, ⟨0,0⟩, ⟨1,1⟩, ⟨1,0⟩⟩
theorem exA_problem : manyDftProblem exA = some (some (.dft exP)) := by
  with_unfolding_all rfl


abbrev exSig : MSig := ⟨1, 2, 3, 4⟩
def exT1 (f : FlagsT) : HTab := ⟨exT0.sols.set 1 ⟨exSig, { f with hi := H_VALID ||| H_LIVE }, 0⟩, 1⟩

theorem lookup_exT0 (f : FlagsT) : htabLookup exT0 exSig f = some none := by
  show lookupLoop exT0 exSig f 1 3 1 none = _
  rw [lookupLoop]; rfl

theorem insert_exT0 (f : FlagsT) : htabInsert exT0 exSig f 0 = some (exT1 f) := by
  have k : killLoop exSig f 0 1 3 exT0 1 none = some (exT0, none) := by rw [killLoop]; rfl
  have fr : freeLoop exT0 3 1 = some 1 := by rw [freeLoop]; rfl
  show (killLoop exSig f 0 1 3 exT0 1 none >>= _) = _
  rw [k]
  show (freeLoop exT0 3 1 >>= _) = _
  rw [fr]
  rfl


def exL : BitVec 20 := 0x1040
def exU : BitVec 20 := 0x31BFF


abbrev exSol : Slot := ⟨exSig, ⟨exU, exU, 0, H_VALID ||| H_LIVE⟩, 0⟩
theorem lookup_exT1 (hi : BitVec 3) : htabLookup (exT1 ⟨exU, exU, 0, 0⟩) exSig ⟨exL, exU, 0, hi⟩ = some (some exSol) := by
  have hb : betterp exSig ⟨exL, exU, 0, hi⟩ exSol none = true := by
    show betterp exSig ⟨exL, exU, 0, 0⟩ exSol none = true
    decide +kernel
  have h4 : lookupLoop (exT1 ⟨exU, exU, 0, 0⟩) exSig ⟨exL, exU, 0, hi⟩ 1 3 4 (some exSol) = some (some exSol) := by
    rw [lookupLoop]; rfl
  have hv : exSol.valid = true := by decide
  show lookupLoop (exT1 ⟨exU, exU, 0, 0⟩) exSig ⟨exL, exU, 0, hi⟩ 1 3 1 none = _
  rw [lookupLoop]
  show (if exSol.valid = true then (if (4 : ℕ) ≠ 1 then lookupLoop (exT1 ⟨exU, exU, 0, 0⟩) exSig _ 1 3 4 (if betterp exSig ⟨exL, exU, 0, hi⟩ exSol none then some exSol else none) else _) else _) = _
  rw [if_pos hv, if_pos (by decide), hb, if_pos rfl, h4]

noncomputable def exPl : Plan := .dft fun ri ii ro io => (notw exMp 64 0 0 0 0).k ri ii ro io 2 20 10 128 2
theorem ex_direct (fl : Flags) : (direct (notw exMp 64 0 0 0 0)).mkplan (.dft exP) fl = .ret (some exPl) := by
  rfl

theorem ex_mapflags : MapFlags.mapflags (-1) FFTW_ESTIMATE = some ⟨exL, exU, 0⟩ := by
  have : MapFlags.timelimitToFlags (-1) = some 0 := by unfold MapFlags.timelimitToFlags; norm_num
  unfold MapFlags.mapflags
  simp only [this]
  clear this
  rfl



theorem mkplanBody_eq (rec : Rec) (env : Env) (p : Problem) (st st' : PSt) (hb : env.world.bogosity st.tick p = false) (hw : st.wstate = .normal) (h0 : st.flags.tli = 0)
    (hst : { st with timedOut := false, nprob := st.nprob + 1, tick := st.tick + 1 } = st') (r : Option Slot) (hl : hlookup st' (env.sigOf p st.nthr) st'.flags = .ok r) :
    mkplanBody rec env p st = match (generalizing := false) r with
      | some sol => useWisdom rec env p (env.sigOf p st.nthr) sol st'
      | none => doSearch rec env p (env.sigOf p st.nthr) st' := by
  have : (if st.estimatep then { st with flags := { st.flags with tli := 0 } } else st) = st := by
    rw [← h0]; split <;> rfl
  unfold mkplanBody
  rw [this]
  obtain ⟨b, u, f, nt, w, tmo, nc, np, npr, t⟩ := st
  simp only at hw h0 hb hst
  subst hw hst
  simp only [checkBogosity, hb, Bool.false_eq_true, if_false] at hl ⊢
  rw [if_neg (by decide), if_pos (by decide), hl]
  cases r <;> rfl

abbrev exS0 : PSt := ⟨exT0, exT0, ⟨exL, exU, 0, 0⟩, 1, .normal, false, false, 0, 0, 0, 0⟩
abbrev exS1 : PSt := ⟨exT0, exT0, ⟨exL, exU, 0, 0⟩, 1, .normal, false, false, 0, 1, 1, 0⟩
abbrev exS2 : PSt := ⟨exT0, exT1 ⟨exU, exU, 0, 0⟩, ⟨exL, exU, 0, 0⟩, 1, .normal, false, false, 0, 1, 3, 0⟩
abbrev exS3 : PSt := ⟨exT0, exT1 ⟨exU, exU, 0, 0⟩, ⟨exL, exU, 0, 1⟩, 1, .normal, false, false, 0, 1, 3, 0⟩
abbrev exS4 : PSt := ⟨exT0, exT1 ⟨exU, exU, 0, 0⟩, ⟨exL, exU, 0, 1⟩, 1, .normal, false, false, 0, 2, 4, 0⟩
abbrev exS5 : PSt := ⟨exT1 ⟨exU, exU, 0, 7⟩, exT1 ⟨exU, exU, 0, 0⟩, ⟨exL, exU, 0, 1⟩, 1, .normal, false, false, 0, 2, 7, 0⟩
abbrev exS6 : PSt := ⟨exT1 ⟨exU, exU, 0, 7⟩, ⟨List.replicate 2 emptySlot, 0⟩, ⟨exL, exU, 0, 1⟩, 1, .normal, false, false, 0, 2, 7, 0⟩
theorem ex_search : search (mkplan exE 0) exE (.dft exP) ⟨exL, exU, 0, 0⟩ exS1 = .ok (some (⟨exPl, 0, false⟩, 0), ⟨exU, exU, 0, 0⟩, ⟨exT0, exT0, ⟨exL, exU, 0, 0⟩, 1, .normal, false, false, 0, 1, 2, 0⟩) := by
  rfl


theorem ex_pass1 : mkplan exE 1 (.dft exP) exS0 = .ok (some exPl, exS2) := by
  have hl : hlookup exS1 exSig ⟨exL, exU, 0, 0⟩ = .ok none := by
    show (ofOpt (htabLookup exT0 exSig _) >>= _) = _
    rw [lookup_exT0]
    rfl
  refine (mkplanBody_eq _ exE (.dft exP) exS0 exS1 rfl rfl rfl rfl none hl).trans ?_
  show doSearch _ _ _ exSig _ = _
  unfold doSearch
  rw [if_neg (by decide), ex_search]
  show (ofOpt (htabInsert exT0 exSig ⟨exU, exU, 0, 0⟩ 0) >>= _) >>= _ = _
  rw [insert_exT0]
  rfl

set_option maxHeartbeats 2000000 in
theorem ex_pass2 : mkplan exE 1 (.dft exP) exS3 = .ok (some exPl, exS5) := by
  have hl : hlookup exS4 exSig ⟨exL, exU, 0, 1⟩ = .ok (some exSol) := by
    show (ofOpt (htabLookup exT0 exSig _) >>= _) = _
    rw [lookup_exT0]
    show ofOpt (htabLookup (exT1 _) exSig _) = _
    rw [lookup_exT1]
    rfl
  refine (mkplanBody_eq _ exE (.dft exP) exS3 exS4 rfl rfl rfl rfl _ hl).trans ?_
  show useWisdom _ _ _ exSig _ _ = _
  show (ofOpt (htabInsert exT0 exSig ⟨exU, exU, 0, 7⟩ 0) >>= _) >>= _ = _
  rw [insert_exT0]
  rfl

theorem mkhashtab_eq : mkhashtab = some ⟨List.replicate 2 emptySlot, 0⟩ := by
  have : Primes.nextPrime ((2 : ℕ) : ℤ) = some ((2 : ℕ) : ℤ) := Primes.nextPrime_some Nat.prime_two (by norm_num [Primes.trialBound]) 0 _ (by norm_num) (by norm_num) (fun q hq h => by exact_mod_cast h) (by simp)
  show (Primes.nextPrime ((2 : ℕ) : ℤ) >>= _) = _
  rw [this]
  rfl

theorem patLevels_ex : patLevels (-1) FFTW_ESTIMATE = [FFTW_ESTIMATE] := by
  unfold patLevels
  have : ¬ ((-1 : ℝ) ≥ 0) := by norm_num
  simp only [if_neg this]
  rfl

theorem ex_plans : planManyDft exE 1 (-1) FFTW_ESTIMATE exA exS = .ok (some ⟨exPl, .dft exP, 1⟩, exS6) := by
  unfold planManyDft planWith
  rw [exA_problem]
  dsimp only
  have h1 : apiMkplan exE 1 (-1) FFTW_ESTIMATE (.dft exP) 0 exS = .ok (some exPl, exS2) := by
    unfold apiMkplan mkplan0
    rw [ex_mapflags]
    show (mkplan exE 1 (.dft exP) exS0 >>= _) = _
    rw [ex_pass1]
    rfl
  have h2 : apiMkplan exE 1 (-1) FFTW_ESTIMATE (.dft exP) BLESSING exS2 = .ok (some exPl, exS5) := by
    unfold apiMkplan mkplan0
    rw [ex_mapflags]
    show (mkplan exE 1 (.dft exP) exS3 >>= _) = _
    rw [ex_pass2]
    rfl
  have h3 : firstPlan exE 1 (-1) FFTW_ESTIMATE (.dft exP) exS = .ok (some exPl, FFTW_ESTIMATE, exS2) := by
    unfold firstPlan
    rw [patLevels_ex, if_neg (by decide)]
    unfold patLoop
    rw [show FFTW_ESTIMATE &&& ~~~(FFTW_ESTIMATE ||| FFTW_MEASURE ||| MapFlags.FFTW_PATIENT ||| MapFlags.FFTW_EXHAUSTIVE) ||| FFTW_ESTIMATE = FFTW_ESTIMATE by decide, h1]
    rfl
  have h4 : recreate exE 1 (-1) (.dft exP) (some exPl) FFTW_ESTIMATE exS2 = .ok (some exPl, exS5) := by
    unfold recreate
    rw [h2]
    rfl
  have h5 : mkapiplan exE 1 (-1) FFTW_ESTIMATE (.dft exP) exS = .ok (some exPl, exS6) := by
    unfold mkapiplan
    rw [h3]
    show (recreate exE 1 (-1) (.dft exP) (some exPl) FFTW_ESTIMATE exS2 >>= _) = _
    rw [h4]
    show (forget exS5 .accursed >>= _) = _
    unfold forget
    rw [mkhashtab_eq]
    rfl
  rw [h5]
  rfl

/-- the solvers are sound -/
theorem exE_sound : ∀ d ∈ exE.slvdescs, d.slv.Sound := by
  intro d hd
  simp only [exE, List.mem_singleton] at hd
  subst hd
  exact C04_standard_dft_solvers exCexp_exact exMp_ok 8 _ (.n1 64 (by decide))

/-- all hypotheses of `C01_many_dft` are met: transform `b` of the backward batch reads `in[64*b + j]` and writes `out[b + 10*k]` -/
example (st : State) (h : 2 ≤ st.next) : DoesDft 1 (manyB exA) (¬ Preserves FFTW_ESTIMATE) ⟨0, 0⟩ ⟨1, 0⟩ st (execute ⟨exPl, .dft exP, 1⟩ st) := by
  refine C01_many_dft exE exE_sound ex_plans ⟨by simp [exA], by simp [exA], by simp [exA]⟩ ?_ ?_ ?_ st (by show 0 < st.next; omega) (by show 1 < st.next; omega)
  · intro b k b' k' hb hk hb' hk' he
    obtain ⟨x, xs, hx, h0, rfl⟩ := box_cons.1 (show Box [10] b from hb)
    obtain rfl := box_nil.1 h0
    obtain ⟨x', xs', hx', h0', rfl⟩ := box_cons.1 (show Box [10] b' from hb')
    obtain rfl := box_nil.1 h0'
    obtain ⟨y, ys, hy, h1, rfl⟩ := box_cons.1 (show Box [64] k from hk)
    obtain rfl := box_nil.1 h1
    obtain ⟨y', ys', hy', h1', rfl⟩ := box_cons.1 (show Box [64] k' from hk')
    obtain rfl := box_nil.1 h1'
    simp [manyBatch, exA, rowMajor] at he
    constructor <;> congr 1 <;> omega
  · intro _ b k b' k' hb hk hb' hk' he
    obtain ⟨x, xs, hx, h0, rfl⟩ := box_cons.1 (show Box [10] b from hb)
    obtain rfl := box_nil.1 h0
    obtain ⟨x', xs', hx', h0', rfl⟩ := box_cons.1 (show Box [10] b' from hb')
    obtain rfl := box_nil.1 h0'
    obtain ⟨y, ys, hy, h1, rfl⟩ := box_cons.1 (show Box [64] k from hk)
    obtain rfl := box_nil.1 h1
    obtain ⟨y', ys', hy', h1', rfl⟩ := box_cons.1 (show Box [64] k' from hk')
    obtain rfl := box_nil.1 h1'
    simp [manyBatch, exA, rowMajor] at he
    constructor <;> congr 1 <;> omega
  · right
    rintro q ⟨e, _, he⟩ ⟨e', _, he'⟩
    have h0 : q.blk = 0 := by rcases he with rfl | rfl <;> rfl
    have h1 : q.blk = 1 := by rcases he' with rfl | rfl <;> rfl
    omega

end FFTW.Registered
