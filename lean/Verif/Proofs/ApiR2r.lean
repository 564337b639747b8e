import Verif.Model.ApiR2r
import Verif.Props.Api
import Verif.Props.Rdft

namespace FFTW.Api
open Tensor Spec DftS Planner RowMajor RdftS
open MapFlags (U32)

/-! ### one dimension -/

theorem doc_kernel {kd : R2rKind} {n : ℕ} (hn : 0 < n) (h2 : kd = .FFTW_REDFT00 → 2 ≤ n) (x : ℕ → ℝ) {k : ℕ} (hk : k < n) :
    ∑ j ∈ Finset.range n, rK (mapR2rKind kd) n j k * x j = kd.doc n x k := by
  cases kd with
  | FFTW_R2HC =>
    show _ = if 2 * k ≤ n then (dftR n x k).re else (dftR n x (n - k)).im
    split
    · rename_i h; exact (C34_r2hc_is_dft x).1 k h
    · rename_i h
      have := (C34_r2hc_is_dft (n := n) x).2 (n - k) (by omega) (by omega)
      rw [show n - (n - k) = k by omega] at this
      exact this
  | FFTW_HC2R =>
    have := C34_hc2r_is_dft hn x k
    show _ = (∑ q ∈ Finset.range n, hcSpectrum n x q * Complex.exp (2 * Real.pi * Complex.I * q * k / n)).re
    rw [← this]; rfl
  | FFTW_REDFT00 => exact Reodft.C35_kernel_is_documented hn (fun _ => h2 rfl) x k
  | FFTW_DHT => exact Reodft.C35_kernel_is_documented (kd := .DHT) hn (by simp) x k
  | FFTW_REDFT01 => exact Reodft.C35_kernel_is_documented (kd := .REDFT01) hn (by simp) x k
  | FFTW_REDFT10 => exact Reodft.C35_kernel_is_documented (kd := .REDFT10) hn (by simp) x k
  | FFTW_REDFT11 => exact Reodft.C35_kernel_is_documented (kd := .REDFT11) hn (by simp) x k
  | FFTW_RODFT00 => exact Reodft.C35_kernel_is_documented (kd := .RODFT00) hn (by simp) x k
  | FFTW_RODFT01 => exact Reodft.C35_kernel_is_documented (kd := .RODFT01) hn (by simp) x k
  | FFTW_RODFT10 => exact Reodft.C35_kernel_is_documented (kd := .RODFT10) hn (by simp) x k
  | FFTW_RODFT11 => exact Reodft.C35_kernel_is_documented (kd := .RODFT11) hn (by simp) x k

/-- the dimensions of a problem with their kinds -/
def szK (dims : List Dim) (kinds : List R2rKind) : List (Dim × RKind) := dims.zip (kinds.map mapR2rKind)

theorem szK_cons (d : Dim) (dims : List Dim) (kd : R2rKind) (kinds : List R2rKind) :
    szK (d :: dims) (kd :: kinds) = (d, mapR2rKind kd) :: szK dims kinds := rfl

theorem szK_fst {dims : List Dim} {kinds : List R2rKind} (h : kinds.length = dims.length) : (szK dims kinds).map Prod.fst = dims :=
  List.map_fst_zip (by simp [h])

theorem szK_n {dims : List Dim} {kinds : List R2rKind} (h : kinds.length = dims.length) : (szK dims kinds).map (·.1.n) = dims.map (·.n) := by
  conv_rhs => rw [← szK_fst h, List.map_map]
  rfl

theorem szK_os {dims : List Dim} {kinds : List R2rKind} (h : kinds.length = dims.length) : (szK dims kinds).map (·.1.os) = dims.map (·.os) := by
  conv_rhs => rw [← szK_fst h, List.map_map]
  rfl

theorem sizesOk_length {kinds : List R2rKind} {n : List ℕ} (h : SizesOk kinds n) : kinds.length = n.length := List.Forall₂.length_eq h

/-- the transform of a problem is the documented one -/
theorem gSum_doc {dims : List Dim} {kinds : List R2rKind} (hs : SizesOk kinds (dims.map (·.n))) {k : List ℕ} (hk : Box (dims.map (·.n)) k) (x : ℤ → ℝ) :
    gSum rK ((szK dims kinds).zip k) x = docNd kinds (dims.map (·.n)) (fun j => x (dot (dims.map (·.is)) j)) k := by
  induction dims generalizing kinds k x with
  | nil =>
    obtain rfl := box_nil.1 hk
    cases kinds with
    | nil => simp [szK, gSum, docNd, dot_nil]
    | cons kd l => have := sizesOk_length hs; simp at this
  | cons d dims ih =>
    cases kinds with
    | nil => have := sizesOk_length hs; simp at this
    | cons kd kinds =>
      rw [List.map_cons] at hs hk
      obtain ⟨h2, hs⟩ := List.forall₂_cons.1 hs
      obtain ⟨k, ks, h1, hk', rfl⟩ := box_cons.1 hk
      have e : (szK (d :: dims) (kd :: kinds)).zip (k :: ks) = ((d, mapR2rKind kd), k) :: (szK dims kinds).zip ks := rfl
      rw [e, gSum, List.map_cons, docNd, ← doc_kernel (by omega) h2 _ h1]
      refine Finset.sum_congr rfl fun j _ => ?_
      rw [ih hs hk']
      congr 2
      funext js
      rw [List.map_cons, dot_cons, mul_comm]

theorem doc_congr {kd : R2rKind} {n : ℕ} (hn : 0 < n) (h2 : kd = .FFTW_REDFT00 → 2 ≤ n) {x y : ℕ → ℝ} {k : ℕ} (hk : k < n) (h : ∀ j < n, x j = y j) :
    kd.doc n x k = kd.doc n y k := by
  rw [← doc_kernel hn h2 _ hk, ← doc_kernel hn h2 _ hk]
  exact Finset.sum_congr rfl fun j hj => by rw [h j (Finset.mem_range.1 hj)]

theorem docNd_congr {kinds : List R2rKind} {n : List ℕ} (hs : SizesOk kinds n) {x y : List ℕ → ℝ} {k : List ℕ} (hk : Box n k)
    (h : ∀ j, Box n j → x j = y j) : docNd kinds n x k = docNd kinds n y k := by
  induction n generalizing kinds k x y with
  | nil =>
    have := h [] (box_nil.2 rfl)
    obtain rfl := box_nil.1 hk
    cases kinds <;> simp only [docNd] <;> exact this
  | cons n ns ih =>
    cases kinds with
    | nil => have := sizesOk_length hs; simp at this
    | cons kd kinds =>
      obtain ⟨h2, hs⟩ := List.forall₂_cons.1 hs
      obtain ⟨k, ks, h1, hk', rfl⟩ := box_cons.1 hk
      rw [docNd, docNd]
      exact doc_congr (by omega) h2 h1 fun j hj => ih hs hk' fun js hjs => h _ (box_cons.2 ⟨j, js, hj, hjs, rfl⟩)

theorem docNd_lin {kinds : List R2rKind} {n : List ℕ} (hs : SizesOk kinds n) {k : List ℕ} (hk : Box n k) (m : ℕ) (c : ℕ → ℝ) (y : ℕ → List ℕ → ℝ) :
    docNd kinds n (fun js => ∑ i ∈ Finset.range m, c i * y i js) k = ∑ i ∈ Finset.range m, c i * docNd kinds n (y i) k := by
  induction n generalizing kinds k y with
  | nil =>
    obtain rfl := box_nil.1 hk
    cases kinds <;> simp only [docNd]
  | cons n ns ih =>
    cases kinds with
    | nil => have := sizesOk_length hs; simp at this
    | cons kd kinds =>
      obtain ⟨h2, hs⟩ := List.forall₂_cons.1 hs
      obtain ⟨k, ks, h1, hk', rfl⟩ := box_cons.1 hk
      simp only [docNd]
      simp only [ih hs hk', ← doc_kernel (kd := kd) (show 0 < n by omega) h2 _ h1, Finset.mul_sum]
      rw [Finset.sum_comm]
      exact Finset.sum_congr rfl fun i _ => Finset.sum_congr rfl fun j _ => by ring

theorem sizesOk_inv {kinds : List R2rKind} {n : List ℕ} (hs : SizesOk kinds n) : SizesOk (kinds.map R2rKind.inv) n := by
  unfold SizesOk at *
  rw [List.forall₂_map_left_iff]
  exact hs.imp fun kd n h h' => h (by cases kd <;> simp_all [R2rKind.inv])

theorem doc_old {kd : R2rKind} {n : ℕ} (x : ℕ → ℝ) {k : ℕ} (hk : k < n) : kd.doc n x k = docR2r (mapR2rKind kd) n x k := by
  have hn : 0 < n := by omega
  cases kd with
  | FFTW_R2HC => exact (doc_kernel (kd := .FFTW_R2HC) hn (by simp) x hk).symm
  | FFTW_HC2R => exact (doc_kernel (kd := .FFTW_HC2R) hn (by simp) x hk).symm
  | _ => rfl

theorem inverse_1d {kd : R2rKind} {n : ℕ} (h2 : kd = .FFTW_REDFT00 → 2 ≤ n) (x : ℕ → ℝ) {m : ℕ} (hm : m < n) :
    kd.inv.doc n (kd.doc n x) m = kd.logical n * x m := by
  have hi : kd.inv = .FFTW_REDFT00 → 2 ≤ n := by intro h; exact h2 (by cases kd <;> simp_all [R2rKind.inv])
  have h3 : mapR2rKind kd = .REDFT00 → 2 ≤ n := by intro h; exact h2 (by cases kd <;> simp_all [mapR2rKind])
  have e1 : mapR2rKind kd.inv = invKind (mapR2rKind kd) := by cases kd <;> rfl
  have e2 : kd.logical n = logicalN (mapR2rKind kd) n := by cases kd <;> rfl
  have e3 : IsR2r (mapR2rKind kd) := by
    cases kd <;> simp [IsR2r, IsReodft, mapR2rKind]
  rw [doc_congr (by omega) hi hm (y := docR2r (mapR2rKind kd) n x) fun j hj => doc_old x hj, doc_old _ hm, e1, e2]
  exact C36_inverse e3 h3 x hm

theorem inverse_nd {kinds : List R2rKind} {n : List ℕ} (hk : SizesOk kinds n) (x : List ℕ → ℝ) {m : List ℕ} (hm : Box n m) :
    docNd (kinds.map R2rKind.inv) n (docNd kinds n x) m = ((List.zipWith R2rKind.logical kinds n).prod : ℕ) * x m := by
  induction n generalizing kinds x m with
  | nil =>
    obtain rfl := box_nil.1 hm
    cases kinds <;> simp [docNd]
  | cons n ns ih =>
    cases kinds with
    | nil => have := sizesOk_length hk; simp at this
    | cons kd kinds =>
      obtain ⟨h2, hs⟩ := List.forall₂_cons.1 hk
      obtain ⟨m, ms, h1, hm', rfl⟩ := box_cons.1 hm
      have hi : kd.inv = .FFTW_REDFT00 → 2 ≤ n := by intro h; exact h2 (by cases kd <;> simp_all [R2rKind.inv])
      rw [List.map_cons, docNd]
      have step : ∀ k < n, docNd (kinds.map R2rKind.inv) ns (fun ks => docNd (kd :: kinds) (n :: ns) x (k :: ks)) ms =
          kd.doc n (fun j => ((List.zipWith R2rKind.logical kinds ns).prod : ℕ) * x (j :: ms)) k := by
        intro k hkn
        rw [docNd_congr (sizesOk_inv hs) hm' (y := fun ks => ∑ j ∈ Finset.range n, rK (mapR2rKind kd) n j k * docNd kinds ns (fun js => x (j :: js)) ks)
          fun ks hks => by rw [docNd, doc_kernel (by omega) h2 _ hkn], docNd_lin (sizesOk_inv hs) hm', ← doc_kernel (by omega) h2 _ hkn]
        exact Finset.sum_congr rfl fun j _ => by rw [ih hs _ hm']
      rw [doc_congr (by omega) hi h1 step, inverse_1d h2 _ h1, List.zipWith_cons_cons, List.prod_cons]
      push_cast
      ring

theorem nodup_one {l l' : List (ℕ × ℤ)}
    (h : ∀ b k b' k', Box (l'.map Prod.fst) b → Box (l.map Prod.fst) k → Box (l'.map Prod.fst) b' → Box (l.map Prod.fst) k' →
      dot (l'.map Prod.snd) b + dot (l.map Prod.snd) k = dot (l'.map Prod.snd) b' + dot (l.map Prod.snd) k' → b = b' ∧ k = k') :
    (offs (l ++ l')).Nodup := by
  rw [offs_boxes]
  refine (nodup_boxes _).map_on ?_
  intro x hx y hy he
  rw [mem_boxes, List.map_append, box_append] at hx hy
  obtain ⟨k, b, hk, hb, rfl⟩ := hx
  obtain ⟨k', b', hk', hb', rfl⟩ := hy
  rw [List.map_append, dot_append (by rw [box_length hk]; simp), dot_append (by rw [box_length hk']; simp)] at he
  obtain ⟨rfl, rfl⟩ := h b k b' k' hb hk hb' hk' (by linarith)
  rfl

variable {L : Layout} {kinds : List R2rKind}

theorem mem_ins_real (hl : kinds.length = L.dims.length) {a : ℤ} : a ∈ ins (locT ℝ 0 0 (szK L.dims kinds) (some L.loops)) ↔ L.Inp a := by
  rw [ins_locT_real, szK_fst hl, append, mem_ins]
  simp only [Batch.Inp, guruBatch]
  constructor
  · rintro ⟨o, h⟩
    obtain ⟨c, hc, e⟩ := mem_pairs_box.1 h
    rw [List.map_append, box_append] at hc
    obtain ⟨j, b, hj, hb, rfl⟩ := hc
    refine ⟨b, j, hb, hj, ?_⟩
    have := congrArg Prod.fst e
    simp only [List.map_append] at this
    rw [dot_append (by rw [box_length hj]; simp)] at this
    rw [this]; ring
  · rintro ⟨b, j, hb, hj, rfl⟩
    refine ⟨dot (L.dims.map (·.os)) j + dot (L.loops.map (·.os)) b, mem_pairs_box.2 ⟨j ++ b, ?_, ?_⟩⟩
    · rw [List.map_append]; exact box_append.2 ⟨j, b, hj, hb, rfl⟩
    · simp only [List.map_append]
      rw [dot_append (by rw [box_length hj]; simp), dot_append (by rw [box_length hj]; simp)]
      rw [add_comm]

theorem mem_outs_real (hl : kinds.length = L.dims.length) {a : ℤ} : a ∈ outs (locT ℝ 0 0 (szK L.dims kinds) (some L.loops)) ↔ L.Out a := by
  rw [outs_locT_real, szK_fst hl, append, mem_outs]
  simp only [Batch.Out, guruBatch]
  constructor
  · rintro ⟨o, h⟩
    obtain ⟨c, hc, e⟩ := mem_pairs_box.1 h
    rw [List.map_append, box_append] at hc
    obtain ⟨j, b, hj, hb, rfl⟩ := hc
    refine ⟨b, j, hb, hj, ?_⟩
    have := congrArg Prod.snd e
    simp only [List.map_append] at this
    rw [dot_append (by rw [box_length hj]; simp)] at this
    rw [this]; ring
  · rintro ⟨b, j, hb, hj, rfl⟩
    refine ⟨dot (L.dims.map (·.is)) j + dot (L.loops.map (·.is)) b, mem_pairs_box.2 ⟨j ++ b, ?_, ?_⟩⟩
    · rw [List.map_append]; exact box_append.2 ⟨j, b, hj, hb, rfl⟩
    · simp only [List.map_append]
      rw [dot_append (by rw [box_length hj]; simp), dot_append (by rw [box_length hj]; simp)]
      congr 1
      rw [add_comm]

theorem wf_real (hl : kinds.length = L.dims.length) {inpl nd : Bool} (ho : L.OutInj) (hi : nd = false → L.InInj)
    (he : inpl = true → ins (locT ℝ 0 0 (szK L.dims kinds) (some L.loops)) = outs (locT ℝ 0 0 (szK L.dims kinds) (some L.loops))) :
    WF ℝ (szK L.dims kinds) (some L.loops) 0 0 inpl nd := by
  refine ⟨?_, fun h => ?_, fun h => he h, fun _ => rfl⟩
  · rw [outs_locT_real, szK_fst hl, append]
    simp only [outs, List.map_append]
    apply nodup_one
    simp only [List.map_map, Function.comp_def]; exact ho
  · rw [ins_locT_real, szK_fst hl, append]
    simp only [ins, List.map_append]
    apply nodup_one
    simp only [List.map_map, Function.comp_def]; exact hi h

/-! ### straight in-place transforms have equal strides -/

theorem box_zero {n : List ℕ} (h : ∀ x ∈ n, 0 < x) : Box n (n.map fun _ => 0) := by
  induction n with
  | nil => exact box_nil.2 rfl
  | cons n ns ih => exact box_cons.2 ⟨0, _, h n (by simp), ih fun x hx => h x (by simp [hx]), rfl⟩

theorem dot_zero (s : List ℤ) (n : List ℕ) : dot s (n.map fun _ => 0) = 0 := by
  induction s generalizing n with
  | nil => exact dot_nil _
  | cons s l ih =>
    cases n with
    | nil => simp [dot]
    | cons n ns => rw [List.map_cons, dot_cons, ih]; simp

theorem stride_eq {l : List Dim} (hp : ∀ d ∈ l, 0 < d.n) (h : ∀ j, Box (l.map (·.n)) j → dot (l.map (·.is)) j = dot (l.map (·.os)) j) :
    ∀ d ∈ l, d.n ≠ 1 → d.is = d.os := by
  induction l with
  | nil => simp
  | cons e l ih =>
    have hz : Box (l.map (·.n)) ((l.map (·.n)).map fun _ => 0) := box_zero (by
      intro x hx; obtain ⟨d, hd, rfl⟩ := List.mem_map.1 hx; exact hp d (by simp [hd]))
    have he := hp e (by simp)
    intro d hd h1
    rcases List.mem_cons.1 hd with rfl | hd
    · have := h (1 :: (l.map (·.n)).map fun _ => 0) (box_cons.2 ⟨1, _, show 1 < d.n by omega, hz, rfl⟩)
      rw [List.map_cons, List.map_cons, dot_cons, dot_cons, dot_zero, dot_zero] at this
      simpa using this
    · refine ih (fun d hd => hp d (by simp [hd])) (fun j hj => ?_) d hd h1
      have := h (0 :: j) (box_cons.2 ⟨0, j, he, hj, rfl⟩)
      rw [List.map_cons, List.map_cons, dot_cons, dot_cons] at this
      simpa using this

theorem noTr_straight [CLib] (hl : kinds.length = L.dims.length) (hp : ∀ d ∈ L.dims, 0 < d.n) {I O : Ptr}
    (h : I = O → (∃ kd ∈ kinds, kd.trig = true) → L.batch.Straight) : NoTr (szK L.dims kinds) (some L.loops) I O := by
  rintro hIO _ ⟨e, he, ht⟩ _
  have hk : ∃ kd ∈ kinds, kd.trig = true := by
    obtain ⟨_, h2⟩ := List.of_mem_zip (a := e.1) (b := e.2) he
    obtain ⟨kd, hkd, h3⟩ := List.mem_map.1 h2
    refine ⟨kd, hkd, ?_⟩
    rw [← h3] at ht
    cases kd <;> first | rfl | (simp [mapR2rKind, RKind.reodft] at ht)
  obtain ⟨hv, hs⟩ := h hIO hk
  have hz : Box (L.dims.map (·.n)) ((L.dims.map (·.n)).map fun _ => 0) := box_zero (by
    intro x hx; obtain ⟨d, hd, rfl⟩ := List.mem_map.1 hx; exact hp d hd)
  have hz' : Box (L.loops.map (·.n)) ((L.loops.map (·.n)).map fun _ => 0) := box_zero hv
  constructor
  · intro e he h1
    have : e.1 ∈ L.dims := by
      have := List.mem_map_of_mem (f := Prod.fst) he
      rwa [szK_fst hl] at this
    refine stride_eq hp (fun j hj => ?_) _ this h1
    have := hs _ j hz' hj
    simp only [guruBatch] at this
    rwa [dot_zero, dot_zero, zero_add, zero_add] at this
  · intro l hl'
    obtain rfl := Option.some.inj hl'
    refine stride_eq (fun d hd => hv _ (List.mem_map_of_mem (f := fun d : Dim => d.n) hd)) (fun j hj => ?_)
    have := hs j _ hj hz
    simp only [guruBatch] at this
    rwa [dot_zero, dot_zero, add_zero, add_zero] at this

variable [CLib]

open Classical in
/-- everything about real arrays, at the API -/
theorem real_api (env : Env) (hs : ∀ d ∈ env.slvdescs, d.slv.Sound) {n : ℕ} {tl : ℝ} {flags : U32}
    {inp out : Ptr} {st0 st0' : PSt} {ap : ApiPlan} {prb : C (Option Problem)} (h : planWith env n tl flags 0 prb st0 = .ok (some ap, st0'))
    (hp : ∀ p, prb = some (some p) → p = mkproblemRdft (szK L.dims kinds) (some L.loops) inp out ∧ ∀ d ∈ L.dims, 0 < d.n)
    (hkinds : SizesOk kinds L.batch.n) (ho : L.OutInj) (hi : ¬ Preserves flags → L.InInj) (hsep0 : SeparateR L.batch inp out)
    (hst : inp = out → (∃ kd ∈ kinds, kd.trig = true) → L.batch.Straight)
    {inp' out' : Ptr} (hk : inp' = out' ↔ inp = out) (hsep : SeparateR L.batch inp' out') {st : State} (hbi : inp'.blk < st.next) (hbo : out'.blk < st.next) :
    (R2rs kinds L.batch (fun x => st.mem (inp' + x)) (fun x => (executeR2r ap inp' out' st).mem (out' + x)) ∧
      OnlyChanges st (executeR2r ap inp' out' st) fun q => RMem out' L.Out q ∨ (¬ Preserves flags ∧ RMem inp' L.Inp q)) ∧
    execute ap = executeR2r ap inp out := by
  obtain ⟨p, pl, hprb, hmk, rfl⟩ := planWith_some h
  obtain ⟨rfl, hpos⟩ := hp p hprb
  have hl : kinds.length = L.dims.length := by rw [sizesOk_length hkinds]; simp [guruBatch]
  have hposK : PosK (szK L.dims kinds) := by
    intro e he
    have := List.mem_map_of_mem (f := Prod.fst) he
    rw [szK_fst hl] at this
    exact hpos _ this
  have hkosh : Kosher (mkproblemRdft (szK L.dims kinds) (some L.loops) inp out) := by
    refine kosher_mkproblemRdft hposK ?_ (noTr_straight hl hpos hst)
    intro hne a ha b hb hab
    rw [← ins_locT_real 0 0] at ha
    rw [← outs_locT_real 0 0] at hb
    rcases hsep0 with hs0 | hs0
    · exact hne hs0
    · exact hs0 _ ⟨a, (mem_ins_real hl).1 ha, rfl⟩ ⟨b, (mem_outs_real hl).1 hb, hab⟩
  have hS := C04_api_returns_only_correct_plans env hs n tl flags _ hkosh st0 st0' pl hmk
  constructor
  · obtain ⟨hG, hE⟩ := sound_mkproblemRdft hposK hS
    have wf : WF ℝ (szK L.dims kinds) (some L.loops) 0 0 (decide (inp = out)) (decide (Preserves flags)) :=
      wf_real hl ho (fun h => hi (of_decide_eq_false h)) (fun h => hE (of_decide_eq_true h))
    have hcp : Compat (locT ℝ 0 0 (szK L.dims kinds) (some L.loops)) (decide (inp = out)) inp' out' st := by
      refine ⟨hbi, hbo, fun h => hk.2 (of_decide_eq_true h), fun h a ha b hb hab => ?_⟩
      rcases hsep with hs | hs
      · exact of_decide_eq_false h (hk.1 hs)
      · exact hs _ ⟨a, (mem_ins_real hl).1 ha, rfl⟩ ⟨b, (mem_outs_real hl).1 hb, hab⟩
    obtain ⟨hf, hv⟩ := hG wf inp' out' st hcp
    refine ⟨fun b k hb hk => ?_, hf.next, fun q hq hw => hf.mem q hq fun h => hw ?_⟩
    · have hkn : Box ((szK L.dims kinds).map (·.1.n)) k := by rw [szK_n hl]; exact hk
      have hkl : k.length = (szK L.dims kinds).length := by rw [box_length hkn]; simp
      have hkd : Box (L.dims.map (·.n)) k := hk
      have := hv _ (gidx_zip hkn) _ (mem_pairs_box.2 ⟨b, hb, rfl⟩)
      rw [gOut_zip hkl, szK_os hl, gSum_doc hkinds hkd] at this
      simp only [val_r] at this
      rw [add_comm] at this
      refine this.trans ?_
      simp only [guruBatch, add_comm]
    · rcases h with ⟨b, hb, rfl⟩ | ⟨hn, a, ha, rfl⟩
      · exact Or.inl ⟨b, (mem_outs_real hl).1 hb, rfl⟩
      · exact Or.inr ⟨of_decide_eq_false hn, a, (mem_ins_real hl).1 ha, rfl⟩
  · funext s
    unfold execute mkproblemRdft executeR2r
    dsimp only
    split
    · rename_i q hq
      split at hq <;> simp at hq
    · rename_i q hq
      split at hq
      · simp at hq
      · simp only [Problem.rdft.injEq] at hq
        subst hq; rfl
    · rename_i q hq
      split at hq <;> simp at hq
    · rename_i q hq
      split at hq <;> simp at hq
    · rename_i hq
      exfalso
      split at hq
      · rename_i hc
        have := hS
        unfold mkproblemRdft at this
        rw [if_pos hc] at this
        cases pl <;> exact this
      · simp at hq

end FFTW.Api
