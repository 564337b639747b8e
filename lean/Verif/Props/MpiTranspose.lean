import Verif.Model.MpiApi
import Verif.Proofs.MpiRecurse3
import Verif.Props.Threads

/-!
# C56: distributed transposition
-/

namespace FFTW.Props
open Tensor Spec RdftS FFTW.Mpi Planner

section
variable [CLib]

/-- plans the serial planner of a process can return, in any state (the flags are consistent, or only wisdom is used): `env` is what is registered with it, `n` bounds the depth
of nesting -/
def SerialPlans (env : Env) (fl : Flags) (x : Problem) (c : Plan) : Prop :=
  ∃ n st st', (LEQ st.flags.l st.flags.u = true ∨ st.wstate = .only ∨ st.wstate = .bogus) ∧ st.flags.l = fl.l ∧ mkplan env n x st = .ok (some c, st')

theorem serialPlans_sound {env : Env} (hs : ∀ d ∈ env.slvdescs, d.slv.Sound) (fl : Flags) (x : Problem) (c : Plan) (hk : Kosher x) (h : SerialPlans env fl x c) :
    FFTW.Sound fl.nd x c := by
  obtain ⟨n, st, st', h1, h2, h3⟩ := h
  have := (mkplan_ok env n x st _ st' h1 h3).sound hs hk c rfl
  rw [h2] at this
  exact this

/-- **C56**: all registered solvers of transpositions are right, if the plans they are given for their subproblems are -/
theorem C56_transposers_sound {junk : TransP → ℕ → List ℤ} (hj : ∀ p w, (junk p w).length = MpiExchange.nPes p.toProb) (s : MSolver) (h : Transposer junk s) : s.Sound := by
  cases h with
  | pairwise preserve => exact pairwise_sound hj preserve
  | alltoall copyIn => exact alltoall_sound copyIn
  | recurse rx preserve heur => exact recurse_sound rx preserve heur

theorem numBlocks_le {n b k : ℕ} (hb : 0 < b) (h : numBlocks n b ≤ k) : n ≤ k * b := by
  unfold numBlocks at h
  have h1 := Nat.div_add_mod (n + b - 1) b
  have h2 := Nat.mod_lt (n + b - 1) hb
  have h3 : b * ((n + b - 1) / b) ≤ b * k := Nat.mul_le_mul_left _ h
  have h4 : b * k = k * b := Nat.mul_comm _ _
  omega

theorem blockOr_pos {n b : ℤ} {k : ℕ} (hn : 0 < n) (hb : 0 ≤ b) (hk : 0 < k) : 0 < blockOr n b k := by
  unfold blockOr
  split
  · unfold defaultBlock
    exact Nat.div_pos (by omega) hk
  · omega

/-- `C56_plan_many_transpose` for any solvers that are right -/
theorem plan_many_transpose_core {S : MSolver → Prop} (hS : ∀ s, S s → s.Sound)
    {A : Flags → Problem → Plan → Prop} (hA : ∀ fl x c, Kosher x → A fl x c → FFTW.Sound fl.nd x c)
    {nx ny howmany xblock yblock : ℤ} {inp out : ℕ → Ptr} {comm : Comm} {flags : MFlags} {space : ℕ → ℕ} {p : TransP}
    (hp : planManyTranspose nx ny howmany xblock yblock inp out comm flags space = some p) (hv : 0 < howmany) (hlen : 0 < comm.length) (hc : comm.Nodup)
    (room : ∀ r < comm.length, block nx.toNat (blockOr nx xblock comm.length) r * ny.toNat * howmany.toNat ≤ space (comm.at r) ∧
      nx.toNat * block ny.toNat (blockOr ny yblock comm.length) r * howmany.toNat ≤ space (comm.at r))
    (apart : MApart comm space (inp (comm.at 0) = out (comm.at 0)) inp out)
    {d : ℕ} {fl : Flags} {f : MPlan} (hf : MPlans S A d fl (.transpose p) f)
    {I O : ℕ → Ptr} {st : Dist} (hr : MCompat comm space (inp (comm.at 0) = out (comm.at 0)) I O st) :
    MFrame comm space fl.nd I O st (f I O st) ∧
    ∀ i j v : ℕ, (i : ℤ) < nx → (j : ℤ) < ny → (v : ℤ) < howmany →
      let xb := blockOr nx xblock comm.length
      let yb := blockOr ny yblock comm.length
      (f I O st (comm.at (j / yb))).mem (O (comm.at (j / yb)) +
          ((if flags.transposedOut then colOff ny.toNat howmany.toNat yb j i v else rowOff nx.toNat howmany.toNat yb j i v : ℕ) : ℤ)) =
        (st (comm.at (i / xb))).mem (I (comm.at (i / xb)) +
          ((if flags.transposedIn then colOff nx.toNat howmany.toNat xb i j v else rowOff ny.toNat howmany.toNat xb i j v : ℕ) : ℤ)) := by
  unfold planManyTranspose at hp
  split at hp
  · simp at hp
  rename_i h0
  simp only at hp
  split at hp
  · simp at hp
  rename_i h1
  obtain rfl := Option.some.inj hp
  have hnx : 0 < nx := by omega
  have hny : 0 < ny := by omega
  have hxb := blockOr_pos (b := xblock) hnx (by omega) hlen
  have hyb := blockOr_pos (b := yblock) hny (by omega) hlen
  have ok := mkTrans_ok (flags := flags) hc (nx := nx.toNat) (ny := ny.toNat) (vn := howmany.toNat) (by omega) (by omega) (by omega) hxb hyb
    (numBlocks_le hxb (by omega)) (numBlocks_le hyb (by omega)) (fun r hr => (room r hr).1) (fun r hr => (room r hr).2) apart
  have hs := mplans_sound hS hA d fl _ f (show MKosher fl (.transpose _) from ok) hf
  obtain ⟨g1, g2⟩ := tok_raw hs I O st hr
  exact ⟨g1, fun i j v hi hj' hv' => g2 i (show i < nx.toNat by omega) j (show j < ny.toNat by omega) v (show v < howmany.toNat by omega)⟩

/-- **C56**, `fftw_mpi_plan_many_transpose`.  Let all processes of a communicator plan the transposition of an `nx × ny` matrix of `howmany`-tuples, whose
rows are distributed by blocks of `xblock` and whose transpose is to be distributed by blocks of `yblock` (0: the default).  Their arrays have room for their part of the
matrix and of its transpose, and either the two arrays coincide on each process or they do not overlap on any.  Whatever plan the planner makes, from the registered MPI solvers
and any correct serial plans, and whatever arrays the plan is run on (in place if planned so, apart if not): the element of row `i` and column `j`, on process
`i / xblock` before, is on process `j / yblock` afterwards, at the place said by the layout; other processes and other memory
are left alone, and so is the input if the planner was told to preserve it. -/
theorem C56_plan_many_transpose {junk : TransP → ℕ → List ℤ} (hj : ∀ p w, (junk p w).length = MpiExchange.nPes p.toProb)
    {A : Flags → Problem → Plan → Prop} (hA : ∀ fl x c, Kosher x → A fl x c → FFTW.Sound fl.nd x c)
    {nx ny howmany xblock yblock : ℤ} {inp out : ℕ → Ptr} {comm : Comm} {flags : MFlags} {space : ℕ → ℕ} {p : TransP}
    (hp : planManyTranspose nx ny howmany xblock yblock inp out comm flags space = some p) (hv : 0 < howmany) (hlen : 0 < comm.length) (hc : comm.Nodup)
    (room : ∀ r < comm.length, block nx.toNat (blockOr nx xblock comm.length) r * ny.toNat * howmany.toNat ≤ space (comm.at r) ∧
      nx.toNat * block ny.toNat (blockOr ny yblock comm.length) r * howmany.toNat ≤ space (comm.at r))
    (apart : MApart comm space (inp (comm.at 0) = out (comm.at 0)) inp out)
    {d : ℕ} {fl : Flags} {f : MPlan} (hf : MPlans (Transposer junk) A d fl (.transpose p) f)
    {I O : ℕ → Ptr} {st : Dist} (hr : MCompat comm space (inp (comm.at 0) = out (comm.at 0)) I O st) :
    MFrame comm space fl.nd I O st (f I O st) ∧
    ∀ i j v : ℕ, (i : ℤ) < nx → (j : ℤ) < ny → (v : ℤ) < howmany →
      let xb := blockOr nx xblock comm.length
      let yb := blockOr ny yblock comm.length
      (f I O st (comm.at (j / yb))).mem (O (comm.at (j / yb)) +
          ((if flags.transposedOut then colOff ny.toNat howmany.toNat yb j i v else rowOff nx.toNat howmany.toNat yb j i v : ℕ) : ℤ)) =
        (st (comm.at (i / xb))).mem (I (comm.at (i / xb)) +
          ((if flags.transposedIn then colOff nx.toNat howmany.toNat xb i j v else rowOff ny.toNat howmany.toNat xb i j v : ℕ) : ℤ)) := by
  exact plan_many_transpose_core (fun s h => C56_transposers_sound hj s h) hA hp hv hlen hc room apart hf hr

/-- **C56** for the library: serial plans come from the planner with the solvers modelled here -/
theorem C56_library {cexp : ℕ → ℤ → ℝ × ℝ} (hc : ExactCexp cexp) {mp : Genfft.Magic} (hmp : Props.MagicOk mp) {szR : ℕ} {env : Env}
    (he : ∀ d ∈ env.slvdescs, Registered.Library cexp mp szR d.slv) {junk : TransP → ℕ → List ℤ} (hj : ∀ p w, (junk p w).length = MpiExchange.nPes p.toProb)
    {p : TransP} (hp : p.Ok) {d : ℕ} {fl : Flags} {f : MPlan} (hf : MPlans (Transposer junk) (SerialPlans env) d fl (.transpose p) f) : TOK fl.nd p f :=
  mplans_sound (fun s h => C56_transposers_sound hj s h) (serialPlans_sound fun dd hd => Registered.C04_library hc hmp szR _ (he dd hd)) d fl _ f
    (show MKosher fl (.transpose p) from hp) hf

end

/-! ### non-vacuity -/

attribute [local instance] sortLib

/-- two processes, a 3 × 2 matrix by blocks of 2 rows, in place -/
def exTrans : TransP := mkTrans 3 2 1 (fun _ => ⟨0, 0⟩) (fun _ => ⟨0, 0⟩) 2 1 [0, 1] { transposedIn := true } (fun _ => 4)

theorem exTrans_api : planManyTranspose 3 2 1 2 0 (fun _ => ⟨0, 0⟩) (fun _ => ⟨0, 0⟩) [0, 1] { transposedIn := true } (fun _ => 4) = some exTrans := by
  rfl

/-- local problems of the example are solved by rdft/nop.c -/
def exA (fl : Flags) (x : Problem) (c : Plan) : Prop := RdftS.nop.mkplan x fl = .ret (some c)

theorem exA_sound (fl : Flags) (x : Problem) (c : Plan) (hk : Kosher x) (h : exA fl x c) : FFTW.Sound fl.nd x c := by
  have := nop_sound x fl hk
  rw [h] at this
  exact this c rfl

def exJunk (p : TransP) (_ : ℕ) : List ℤ := List.replicate (MpiExchange.nPes p.toProb) 0

theorem exTrans_post (fl : Flags) (B : Flags → MProblem → MPlan → Prop) (g : Post → MPlan) :
    (mkplansPost exTrans (fun _ => ⟨0, 0⟩) (fun _ => ⟨0, 0⟩) fun post => .ret (some (g post))).Runs exA B fl
      (some (g ⟨fun _ => .rdft fun _ _ st => st, fun _ => .rdft fun _ _ st => st, fun _ => .rdft fun _ _ st => st⟩)) := by
  refine .loc _ _ _ _ (fun _ => .rdft fun _ _ st => st) _ ?_ (.loc _ _ _ _ (fun _ => .rdft fun _ _ st => st) _ ?_ (.loc _ _ _ _ (fun _ => .rdft fun _ _ st => st) _ ?_ (.ret _)))
  · intro me hme x hx
    obtain rfl := Option.some.inj hx
    have : me = 0 ∨ me = 1 := by have : me < 2 := hme; omega
    rcases this with rfl | rfl
    · with_unfolding_all rfl
    · with_unfolding_all rfl
  · intro me hme x hx
    have : me = 0 ∨ me = 1 := by have : me < 2 := hme; omega
    rcases this with rfl | rfl
    · obtain rfl := Option.some.inj ((show some (rdft0 (restDims exTrans false 0) (⟨0, 2⟩ : Ptr) ⟨0, 2⟩) = _ by with_unfolding_all rfl).trans hx)
      with_unfolding_all rfl
    · obtain rfl := Option.some.inj ((show some (rdft0 (restDims exTrans false 1) (⟨0, 2⟩ : Ptr) ⟨0, 2⟩) = _ by with_unfolding_all rfl).trans hx)
      with_unfolding_all rfl
  · intro me hme x hx
    have : hasCld3 exTrans (direct exTrans ⟨0, 0⟩ ⟨0, 0⟩) = false := rfl
    beta_reduce at hx
    rw [this] at hx
    simp at hx

theorem exTrans_plan (fl : Flags) : ∃ f, MPlans (Transposer exJunk) exA 1 fl (.transpose exTrans) f := by
  obtain ⟨g, hg⟩ : ∃ g : Post → MPlan, (transposePairwise exJunk false).mkplan (.transpose exTrans) fl =
      mkplansPost exTrans (fun _ => ⟨0, 0⟩) (fun _ => ⟨0, 0⟩) fun post => .ret (some (g post)) := by
    have e : (if (false || fl.nd) = true then exTrans.O else exTrans.I) = fun _ => (⟨0, 0⟩ : Ptr) := by split <;> rfl
    show ∃ g : Post → MPlan, pairwiseMk (exJunk exTrans) false exTrans fl = _
    unfold pairwiseMk
    simp only
    have ha : pairwiseApplicable false exTrans fl = true := rfl
    rw [if_neg (by rw [ha]; decide), if_neg (by decide), e]
    exact ⟨_, rfl⟩
  exact ⟨_, fl, by simp [LEQ], transposePairwise exJunk false, .pairwise false, by rw [hg]; exact exTrans_post fl _ g⟩

/-- all hypotheses of `C56_plan_many_transpose` are met -/
example (fl : Flags) (st : Dist) (h : ∀ w, 0 < (st w).next) : ∃ f : MPlan, ∀ i j : ℕ, i < 3 → j < 2 →
    (f (fun _ => ⟨0, 0⟩) (fun _ => ⟨0, 0⟩) st j).mem ⟨0, i⟩ = (st (i / 2)).mem ⟨0, if i = 2 then j else j * 2 + i⟩ := by
  obtain ⟨f, hf⟩ := exTrans_plan fl
  refine ⟨f, fun i j hi hj => ?_⟩
  have := (C56_plan_many_transpose (junk := exJunk) (fun p w => by simp [exJunk]) exA_sound exTrans_api (by norm_num) (by decide) (by decide) (by
    intro r hr
    have : r = 0 ∨ r = 1 := by have : r < 2 := hr; omega
    rcases this with rfl | rfl <;> decide) ⟨fun _ _ _ => rfl, fun h => absurd rfl h, fun h => absurd rfl h⟩ hf (I := fun _ => ⟨0, 0⟩) (O := fun _ => ⟨0, 0⟩) (st := st)
    ⟨fun w _ => h w, fun w _ => h w, fun _ _ _ => rfl, fun h => absurd rfl h⟩).2 i j 0 (by omega) (by omega) (by norm_num)
  interval_cases i <;> interval_cases j <;> exact this

end FFTW.Props
