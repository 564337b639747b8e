import Verif.Proofs.MpiApi5
import Verif.Proofs.MpiRdft2
import Verif.Proofs.ApiR2r

/-! the user's layout of distributed arrays of real numbers -/

namespace FFTW.Mpi
open Tensor Spec RdftS

section
variable [CLib]

theorem holdsR_flip {vn : ℕ} {comm : Comm} {P : ℕ → Ptr} {st : Dist} {t : Bool} {n start : ℕ → List ℕ} {X : List ℕ → ℕ → ℝ} (hl : ∀ me, (start me).length = (n me).length) :
    HoldsR vn comm P st t n start X ↔ HoldsR vn comm P st false (fun me => flip2 t (n me)) (fun me => flip2 t (start me)) fun l v => X (flip2 t l) v := by
  constructor
  · intro h me hme l hi v hv
    have := h me hme (flip2 t l) (by have := index_flip t hi; rwa [flip2_flip2] at this) v hv
    rw [flip2_flip2] at this
    refine this.trans ?_
    beta_reduce
    have hlen := hi.length
    have e1 : (start me).length = (flip2 t l).length := by
      rw [hl]
      have := index_flip t hi
      rw [flip2_flip2] at this
      exact this.length.symm
    congr 1
    have := zipWith_flip t e1
    rw [flip2_flip2] at this
    rw [← this, flip2_flip2]
  · intro h me hme l hi v hv
    have := h me hme (flip2 t l) (index_flip t hi) v hv
    refine this.trans ?_
    beta_reduce
    congr 1
    rw [← zipWith_flip t (by rw [hl]; exact hi.length.symm), flip2_flip2]

theorem Simple.readR {n b : ℕ} {ns : List ℕ} {sz start : ℕ → List ℕ} (h : Simple n b ns sz start) (hb : 0 < b) {vn : ℕ} {comm : Comm} (hp : numBlocks n b ≤ comm.length) {P : ℕ → Ptr}
    {st : Dist} {X : List ℕ → ℕ → ℝ} (hX : HoldsR vn comm P st false sz start X) {j : List ℕ} (hj : Index (n :: ns) j) {v : ℕ} (hv : v < vn) :
    relt vn comm P st (place ((n, b) :: whole ns) j) v = X j v := by
  cases hj with
  | @cons j0 _ js _ h0 hj =>
  have hlt := lt_numBlocks hb h0
  obtain ⟨e1, e2⟩ := h.lt _ hlt
  have := hX (j0 / b) (by omega) (j0 % b :: js) (by rw [e1]; exact .cons (block_mod h0 hb) hj) v hv
  rw [e1, e2] at this
  simp only [flip2, Bool.false_eq_true, if_false, List.zipWith_cons_cons] at this
  rw [zip_zero _ _ (Index.length hj), Nat.div_add_mod'] at this
  rw [place_cons hj, ← this, rowPos_eq]
  rfl

theorem Simple.writeR {n b : ℕ} {ns : List ℕ} {sz start : ℕ → List ℕ} (h : Simple n b ns sz start) {vn : ℕ} {comm : Comm} {P : ℕ → Ptr}
    {st : Dist} {X : List ℕ → ℕ → ℝ} (hX : ∀ j, Index (n :: ns) j → ∀ v < vn, relt vn comm P st (place ((n, b) :: whole ns) j) v = X j v) : HoldsR vn comm P st false sz start X := by
  intro me hme l hl v hv
  by_cases hlt : me < numBlocks n b
  · obtain ⟨e1, e2⟩ := h.lt _ hlt
    rw [e1] at hl
    cases hl with
    | @cons l0 _ ls _ h0 hl =>
    obtain ⟨g1, g2, g3⟩ := block_global h0
    have := hX ((me * b + l0) :: ls) (.cons g1 hl) v hv
    rw [place_cons hl, g2, g3] at this
    rw [e1, e2]
    simp only [flip2, Bool.false_eq_true, if_false, List.zipWith_cons_cons]
    rw [zip_zero _ _ (Index.length hl), ← this, rowPos_eq]
    rfl
  · obtain ⟨m, e⟩ := h.ge me (by omega)
    rw [e] at hl
    cases hl with
    | cons h0 _ => exact absurd h0 (by omega)

/-- exchange of the first two kinds -/
def flipK {α : Type} (t : Bool) (l : List α) : List α :=
  if t then match l with
    | a :: b :: l => b :: a :: l
    | l => l
  else l

theorem r2rSum_flip (t : Bool) {ns k : List ℕ} {kd : List RKind} (h : Index ns k) (hl : kd.length = ns.length) (x : List ℕ → ℝ) :
    r2rSum (flip2 t ns) (flipK t kd) (flip2 t k) (fun j => x (flip2 t j)) = r2rSum ns kd k x := by
  cases t with
  | false => rfl
  | true =>
    cases h with
    | nil => obtain rfl := List.length_eq_zero_iff.1 hl; rfl
    | cons h1 h => cases h with
      | nil =>
        rcases kd with _ | ⟨a, _ | ⟨b, l⟩⟩
        · simp at hl
        · simp only [flip2, flipK, if_true, swap2, r2rSum]
        · simp at hl
      | cons h2 h =>
        rcases kd with _ | ⟨a, _ | ⟨b, l⟩⟩
        · simp at hl
        · simp at hl
        simp only [flip2, flipK, if_true, swap2, r2rSum, Finset.mul_sum]
        rw [Finset.sum_comm]
        refine Finset.sum_congr rfl fun i _ => Finset.sum_congr rfl fun j _ => ?_
        ring

/-- in terms of the documented transforms -/
theorem r2rSum_doc {ns : List ℕ} (hpos : ∀ n ∈ ns, 0 < n) : ∀ {kinds : List R2rKind} {k : List ℕ} (_ : SizesOk kinds ns) (_ : Index ns k) (x : List ℕ → ℝ),
    r2rSum ns (kinds.map Api.mapR2rKind) k x = docNd kinds ns x k := by
  induction ns with
  | nil =>
    intro kinds k hs hk x
    cases hs
    cases hk
    rfl
  | cons n ns ih =>
    intro kinds k hs hk x
    cases hs with
    | @cons kd _ kinds _ h2 hs =>
    cases hk with
    | @cons i _ ks _ hi hk =>
    simp only [List.map_cons, r2rSum, docNd]
    rw [← Api.doc_kernel (hpos n (by simp)) h2 _ hi]
    refine Finset.sum_congr rfl fun j _ => ?_
    rw [ih (fun m hm => hpos m (by simp [hm])) hs hk]

/-- a complex DFT with the same layout -/
def shadow (p : MRdftP) : MDftP :=
  { sz := p.sz, vn := p.vn, I := fun _ => ⟨0, 0⟩, O := fun _ => ⟨0, 0⟩, comm := p.comm, bwd := false, flags := p.flags, space := fun w => 2 * p.space w }

theorem shadow_at {p : MRdftP} {a b : DDim} {l : List DDim} (hsz : p.sz = a :: b :: l) (j : List ℕ) : p.inAt j = (shadow p).inAt j ∧ p.outAt j = (shadow p).outAt j := by
  have six : (shadow p).sixStep = none := six_long (p := shadow p) hsz
  exact ⟨(inAt_none six (j)).symm, (outAt_none six (j)).symm⟩

theorem ok_of_shadow {p : MRdftP} {fl : Flags} (h : (shadow p).Ok fl) {a b : DDim} {l : List DDim} (hsz : p.sz = a :: b :: l) (hk : p.kind.length = p.sz.length)
    (hap : MApart p.comm p.space p.inpl p.I p.O) : p.Ok fl := by
  have six : (shadow p).sixStep = none := six_long (p := shadow p) hsz
  refine ⟨h.nodup, h.rnk, hk, h.vnpos, fun d hd => ?_, h.pes, h.pesOut, fun r hr => ?_, fun r hr => ?_, ?_, hap⟩
  · have := h.pos d hd
    omega
  · have := h.roomIn r hr
    rw [inSize_none six] at this
    have : localSize p.inD r * p.vn * 2 ≤ 2 * p.space (p.comm.at r) := this
    omega
  · have := h.roomOut r hr
    rw [outSize_none six] at this
    have : localSize p.outD r * p.vn * 2 ≤ 2 * p.space (p.comm.at r) := this
    omega
  · intro h1 h2 d l' hl hw r hr
    have := h.roomMid h1 h2 d l' hl hw (fun e => by rw [e] at hl; rw [hsz] at hl; simp at hl) r hr
    have : d.n * Mpi.block ((l'.map DDim.n).prod * p.vn) (defaultBlock ((l'.map DDim.n).prod * p.vn) p.comm.length) r * 2 ≤ 2 * p.space (p.comm.at r) := this
    omega

variable {npes : ℕ} {tIn tOut : Bool} {a b : DDim} {l : List DDim}

theorem Lay.map_canonical (h : Lay npes tIn tOut a b l) : (a :: b :: l).map DDim.canonical = a :: b :: l := by
  have e : ∀ l' : List DDim, (∀ d ∈ l', 1 < d.n ∧ d.ib = d.n ∧ d.ob = d.n) → l'.map DDim.canonical = l' := by
    intro l' hl
    induction l' with
    | nil => rfl
    | cons d l' ih =>
      obtain ⟨h1, h2, h3⟩ := hl d (by simp)
      rw [List.map_cons, ih fun x hx => hl x (by simp [hx]), canonical_self ⟨h1, by omega, by omega, by omega, by omega⟩]
  rw [List.map_cons, List.map_cons, canonical_self h.posA, canonical_self h.posB, e l h.posL]

/-- the problem made by `mkproblem_rdft` -/
theorem madeR (h : Lay npes tIn tOut a b l) {flags : MFlags} (hf : flags.onlyTransposed = true) (hi : flags.transposedIn = tIn) (ho : flags.transposedOut = tOut)
    (vn : ℕ) (I O : ℕ → Ptr) (comm : Comm) (kinds : List RKind) (space : ℕ → ℕ) :
    Made (shadow (Rdft.mkRdft (a :: b :: l) vn I O comm kinds flags space)) tIn tOut a b l ∧ (Rdft.mkRdft (a :: b :: l) vn I O comm kinds flags space).kind = flipK tIn kinds := by
  obtain ⟨si, so, ti, tt, bv⟩ := flags
  simp only at hi ho
  subst hi ho
  simp only [MFlags.onlyTransposed, Bool.and_eq_true, Bool.not_eq_true'] at hf
  obtain ⟨⟨h1, h2⟩, h3⟩ := hf
  subst h1 h2 h3
  unfold Rdft.mkRdft shadow
  simp only [h.map_canonical]
  cases ti with
  | true =>
    refine ⟨⟨rfl, by cases tt <;> rfl⟩, ?_⟩
    rcases kinds with _ | ⟨k0, _ | ⟨k1, ks⟩⟩ <;> rfl
  | false => exact ⟨⟨rfl, by cases tt <;> rfl⟩, rfl⟩

theorem mkRdft_fields (sz : List DDim) (vn : ℕ) (I O : ℕ → Ptr) (comm : Comm) (kinds : List RKind) (flags : MFlags) (space : ℕ → ℕ) :
    (Rdft.mkRdft sz vn I O comm kinds flags space).vn = vn ∧ (Rdft.mkRdft sz vn I O comm kinds flags space).I = I ∧ (Rdft.mkRdft sz vn I O comm kinds flags space).O = O ∧
    (Rdft.mkRdft sz vn I O comm kinds flags space).comm = comm ∧ (Rdft.mkRdft sz vn I O comm kinds flags space).space = space := by
  unfold Rdft.mkRdft
  simp only
  split <;> exact ⟨rfl, rfl, rfl, rfl, rfl⟩

end

end FFTW.Mpi
