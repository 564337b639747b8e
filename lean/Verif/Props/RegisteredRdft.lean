import Verif.Proofs.RdftBuffered
import Verif.Props.Registered
import Verif.Props.Rdft
import Verif.Props.Reodft
import Verif.Props.Transpose3
import Verif.Props.ApiR2c
import Verif.Proofs.Rdft2Buf
import Verif.Proofs.Rdft2Rank
import Verif.Proofs.DftR2hc
import Verif.Props.CodeletsR
import Verif.Props.Hc2hc
import Verif.Props.Hc2c
import Verif.Props.CodeletsR2r

/-!
# The solvers registered by `X(rdft_conf_standard)` and `X(reodft_conf_standard)`

`RdftStandard` lists all solvers of rdft/conf.c and reodft/conf.c; each is proved sound.
-/

namespace FFTW.Registered
open Tensor Spec Planner Api RowMajor
open DftS (Taste)
open MapFlags (U32)

variable [CLib]

/-- C54, C50: loops around r2c and c2r transforms -/
theorem C54_rdft2_loop (vecloopDim : Int) (buddies : List Int) (taste : Taste) : (Rdft2S.vrankGeq1 vecloopDim buddies taste).Sound :=
  vrankGeq1_2_sound vecloopDim buddies taste
/-- C54, C50: a multi-dimensional r2c (c2r) transform is a one-dimensional one and a complex one -/
theorem C54_rdft2_split (spltrnk : Int) (buddies : List Int) (taste : Taste) : (Rdft2S.rankGeq2 spltrnk buddies taste).Sound :=
  rankGeq2_2_sound spltrnk buddies taste
/-- C54: transforms of size 1 -/
theorem C54_rdft2_rank0 : Rdft2S.rank0.Sound := rank0_2_sound
/-- C54: nothing to do -/
theorem C54_rdft2_nop : Rdft2S.nop2.Sound := nop2_sound
/-- C54: r2c (c2r) transforms by way of halfcomplex transforms in a buffer -/
theorem C54_rdft2_rdft (szR : ℕ) (taste : Taste) : (Rdft2S.rdft2Rdft szR taste).Sound := rdft2Rdft_sound szR taste
/-- C54, C40: buffering of r2c (c2r) transforms -/
theorem C54_rdft2_buffered (szR which : ℕ) (taste : Taste) : (Rdft2S.buffered2 szR which taste).Sound := buffered2_sound szR which taste

/-- C40: buffering of real transforms -/
theorem C40_rdft_buffered (szR which : ℕ) (taste : Taste) : (RdftS.buffered szR which taste).Sound := RdftS.buffered_sound szR which taste

/-- the solver takes an in-place transform of 20 rows (4 rounds of 5) and an out-of-place c2r transform of
13 rows with preserved input (one round of 8, and 5 more) -/
example : RdftS.bufferedApplicable 8 0 ⟨[(⟨4, 2, 2⟩, .R2HC00)], some [⟨20, 8, 8⟩], ⟨0, 0⟩, ⟨0, 0⟩⟩ ⟨4, 2, 2⟩ .R2HC00 ⟨20, 8, 8⟩ [⟨20, 8, 8⟩] true = true ∧
    DftS.nbuf 8 4 20 8 = 5 ∧
    RdftS.bufferedApplicable 8 0 ⟨[(⟨4, 2, 1⟩, .HC2R00)], some [⟨13, 8, 4⟩], ⟨0, 0⟩, ⟨1, 0⟩⟩ ⟨4, 2, 1⟩ .HC2R00 ⟨13, 8, 4⟩ [⟨13, 8, 4⟩] true = true ∧
    DftS.nbuf 8 4 13 8 = 8 := by decide +kernel

/-- the real codelets -/
inductive RealCodelet (mp : Genfft.Magic) : RdftS.KR2c → Prop
  | r2cf (II : Bool) (n : ℕ) : RealCodelet mp (Genfft.r2cf mp II n)
  | r2cb (III : Bool) (n : ℕ) : RealCodelet mp (Genfft.r2cb mp III n)

theorem RealCodelet.sound {mp : Genfft.Magic} (hmp : Props.MagicOk mp) {c : RdftS.KR2c} (h : RealCodelet mp c) : c.Sound := by
  cases h with
  | r2cf II n => exact Props.C47_r2cf_codelet mp hmp II n
  | r2cb III n => exact Props.C47_r2cb_codelet mp hmp III n

/-- the real-to-real codelets, of all kinds -/
inductive R2rCodelet (mp : Genfft.Magic) : RdftS.KR2r → Prop
  | r2r (bug : ℕ → ℝ) (mode : Genfft.R2rMode) (n : ℕ) (hm : mode = .REDFT00 → 2 ≤ n) : R2rCodelet mp (Genfft.r2r mp bug mode n)

theorem R2rCodelet.sound {mp : Genfft.Magic} (hmp : Props.MagicOk mp) {c : RdftS.KR2r} (h : R2rCodelet mp c) : c.Sound := by
  cases h with
  | r2r bug mode n hm => exact Props.C47_r2r_codelet mp hmp bug mode n hm

/-- the halfcomplex twiddle codelets: `hf_*`, `hb_*` load all twiddle factors, `hf2_*`, `hb2_*` have `-twiddle-log3` (rdft/scalar/r2cf/Makefile.am, r2cb/Makefile.am) -/
inductive HcCodelet (mp : Genfft.Magic) : RdftS.KHc2hc → Prop
  | load (dit : Bool) (n : ℕ) (hn : 2 ≤ n) : HcCodelet mp (Genfft.hc2hcCodelet mp Genfft.loadAll dit n)
  | log3 (dit : Bool) (n : ℕ) (hn : 2 ≤ n) : HcCodelet mp (Genfft.hc2hcCodelet mp Genfft.log3Policy dit n)

theorem HcCodelet.sound {mp : Genfft.Magic} (hmp : Props.MagicOk mp) {cexp : ℕ → ℤ → ℝ × ℝ} (hc : ExactCexp cexp) {c : RdftS.KHc2hc} (h : HcCodelet mp c) : c.Sound cexp := by
  cases h with
  | load dit n hn => exact Props.C47_hc2hc_codelet hc mp hmp _ n (Or.inl ⟨rfl, by omega⟩) dit
  | log3 dit n hn => exact Props.C47_hc2hc_codelet hc mp hmp _ n (Or.inr ⟨Or.inr rfl, hn⟩) dit

/-- the twiddle codelets between real and complex arrays: `hc2cf_*`, `hc2cb_*` and their `dft` variants load all twiddle factors, the others have
`-twiddle-log3` (rdft/scalar/r2cf/Makefile.am, r2cb/Makefile.am); all radices are even -/
inductive CCodelet (mp : Genfft.Magic) : Hc2cKind → Rdft2S.KHc2c → Prop
  | load (via : Hc2cKind) (dit : Bool) (n : ℕ) (hn : 2 ≤ n) (h2 : n % 2 = 0) : CCodelet mp via (Genfft.hc2cCodelet mp Genfft.loadAll via dit n)
  | log3 (via : Hc2cKind) (dit : Bool) (n : ℕ) (hn : 2 ≤ n) (h2 : n % 2 = 0) : CCodelet mp via (Genfft.hc2cCodelet mp Genfft.log3Policy via dit n)

theorem CCodelet.sound {mp : Genfft.Magic} (hmp : Props.MagicOk mp) {cexp : ℕ → ℤ → ℝ × ℝ} (hc : ExactCexp cexp) {via : Hc2cKind} {c : Rdft2S.KHc2c}
    (h : CCodelet mp via c) : c.Sound via cexp := by
  cases h with
  | load dit n hn h2 => exact Props.C47_hc2c_codelet hc mp hmp _ n h2 (Or.inl ⟨rfl, by omega⟩) via dit
  | log3 dit n hn h2 => exact Props.C47_hc2c_codelet hc mp hmp _ n h2 (Or.inr ⟨Or.inr rfl, hn⟩) via dit

/-- the solvers registered by `X(rdft_conf_standard)`, rdft/conf.c:24-62, and `X(reodft_conf_standard)`, reodft/conf.c:24-47, with the register functions of each file
(codelets are registered by rdft/kr2c.c:23-31, rdft/kr2r.c:24-27, rdft/khc2hc.c:23-28 and rdft/khc2c.c:24-28, of any size here) -/
inductive RdftStandard (mp : Genfft.Magic) (cexp : ℕ → ℤ → ℝ × ℝ) (szR : ℕ) : Solver → Prop
  | indirect (after : Bool) (taste : Taste) : RdftStandard mp cexp szR (RdftS.indirect after taste)
  | rank0 (alg : RdftS.Rank0) : RdftStandard mp cexp szR (RdftS.rank0 szR alg)
  | vrank3Transpose (alg : RdftS.Tr3) (taste : Taste) : RdftStandard mp cexp szR (RdftS.vrank3Transpose alg taste)
  | vrankGeq1 (d : ℤ) (hd : d ∈ [1, -1]) (taste : Taste) : RdftStandard mp cexp szR (RdftS.vrankGeq1 d [1, -1] taste)
  | nop : RdftStandard mp cexp szR RdftS.nop
  | buffered (i : ℕ) (hi : i < DftS.maxnbufs.length) (taste : Taste) : RdftStandard mp cexp szR (RdftS.buffered szR i taste)
  | generic (kind : RKind) (hk : kind = .R2HC00 ∨ kind = .HC2R00) (taste : Taste) : RdftStandard mp cexp szR (RdftS.genericR cexp kind taste)
  | rankGeq2 (d : ℤ) (hd : d ∈ [1, 0, -2]) (taste : Taste) : RdftStandard mp cexp szR (RdftS.rankGeq2 d [1, 0, -2] taste)
  | dftR2hc (taste : Taste) : RdftStandard mp cexp szR (RdftS.dftR2hc taste)
  | rdftDht (taste : Taste) : RdftStandard mp cexp szR (RdftS.rdftDht taste)
  | dhtR2hc (taste : Taste) : RdftStandard mp cexp szR (RdftS.dhtR2hc taste)
  | dhtRader (pad : Bool) (taste : Taste) : RdftStandard mp cexp szR (RdftS.dhtRader cexp pad taste)
  | vrankGeq1_2 (d : ℤ) (hd : d ∈ [1, -1]) (taste : Taste) : RdftStandard mp cexp szR (Rdft2S.vrankGeq1 d [1, -1] taste)
  | nop2 : RdftStandard mp cexp szR Rdft2S.nop2
  | rank0_2 : RdftStandard mp cexp szR Rdft2S.rank0
  | buffered2 (i : ℕ) (hi : i < DftS.maxnbufs.length) (taste : Taste) : RdftStandard mp cexp szR (Rdft2S.buffered2 szR i taste)
  | rankGeq2_2 (d : ℤ) (hd : d ∈ [1, 0, -2]) (taste : Taste) : RdftStandard mp cexp szR (Rdft2S.rankGeq2 d [1, 0, -2] taste)
  | rdft2Rdft (taste : Taste) : RdftStandard mp cexp szR (Rdft2S.rdft2Rdft szR taste)
  | direct (c : RdftS.KR2c) (hc : RealCodelet mp c) : RdftStandard mp cexp szR (RdftS.directR c)
  | directbuf (c : RdftS.KR2c) (hc : RealCodelet mp c) : RdftStandard mp cexp szR (RdftS.directbufR c)
  | direct2 (c : RdftS.KR2c) (hc : RealCodelet mp c) : RdftStandard mp cexp szR (Rdft2S.direct2 c)
  | directR2r (c : RdftS.KR2r) (hc : R2rCodelet mp c) : RdftStandard mp cexp szR (RdftS.directR2r c)
  | hc2hcGeneric (taste : Taste) (taste' : HcP → Flags → Bool) : RdftStandard mp cexp szR (RdftS.hc2hc 0 (RdftS.hc2hcGeneric cexp taste') taste)
  | hc2hcDirect (c : RdftS.KHc2hc) (hc : HcCodelet mp c) (bufferedp : Bool) (taste : Taste) (taste' : HcP → Flags → Bool) :
      RdftStandard mp cexp szR (RdftS.hc2hc c.radix (RdftS.hc2hcDirect cexp c bufferedp taste') taste)
  | hc2cDirect (via : Hc2cKind) (c : Rdft2S.KHc2c) (hc : CCodelet mp via c) (bufferedp : Bool) (taste : Taste) (taste' : Hc2cP → Flags → Bool) :
      RdftStandard mp cexp szR (Rdft2S.ctHc2c via c.radix (Rdft2S.hc2cDirect cexp c bufferedp taste') taste)
  | redft00Pad (taste : Taste) : RdftStandard mp cexp szR (Reodft.redft00Pad taste)
  | rodft00Pad (taste : Taste) : RdftStandard mp cexp szR (Reodft.rodft00Pad taste)
  | reodft00Split (taste : Taste) : RdftStandard mp cexp szR (Reodft.reodft00Split cexp taste)
  | reodft010 (taste : Taste) : RdftStandard mp cexp szR (Reodft.reodft010 cexp taste)
  | reodft11Radix2 (taste : Taste) : RdftStandard mp cexp szR (Reodft.reodft11Radix2 cexp taste)
  | reodft11Odd (taste : Taste) : RdftStandard mp cexp szR (Reodft.reodft11Odd taste)

/-- C04: every solver in the standard configuration for real transforms is sound -/
theorem C04_standard_rdft_solvers {mp : Genfft.Magic} (hmp : Props.MagicOk mp) {cexp : ℕ → ℤ → ℝ × ℝ} (hc : ExactCexp cexp) (szR : ℕ) (s : Solver)
    (h : RdftStandard mp cexp szR s) : s.Sound := by
  cases h with
  | indirect a t => exact RdftS.indirect_sound a t
  | rank0 a => exact RdftS.rank0_sound szR a
  | vrank3Transpose a t => exact RdftS.vrank3Transpose_sound a t
  | vrankGeq1 d _ t => exact RdftS.vrankGeq1_sound _ _ t
  | nop => exact RdftS.nop_sound
  | buffered i _ t => exact C40_rdft_buffered _ _ t
  | generic k hk t => exact RdftS.genericR_sound hc hk t
  | rankGeq2 d _ t => exact RdftS.rankGeq2_sound _ _ t
  | dftR2hc t => exact RdftS.dftR2hc_sound t
  | rdftDht t => exact RdftS.rdftDht_sound t
  | dhtR2hc t => exact RdftS.dhtR2hc_sound t
  | dhtRader p t => exact RdftS.dhtRader_sound hc p t
  | vrankGeq1_2 d _ t => exact C54_rdft2_loop _ _ t
  | nop2 => exact C54_rdft2_nop
  | rank0_2 => exact C54_rdft2_rank0
  | buffered2 i _ t => exact C54_rdft2_buffered _ _ t
  | rankGeq2_2 d _ t => exact C54_rdft2_split _ _ t
  | rdft2Rdft t => exact C54_rdft2_rdft _ t
  | direct c h => exact Props.C52_direct_r2c c (h.sound hmp)
  | directbuf c h => exact Props.C52_directbuf_r2c c (h.sound hmp)
  | direct2 c h => exact Props.C52_direct2 c (h.sound hmp)
  | directR2r c h => exact Props.C52_direct_r2r c (h.sound hmp)
  | hc2hcGeneric t t' => exact Props.C42_hc2hc_generic hc 0 t t'
  | hc2hcDirect c h b t t' => exact Props.C52_hc2hc_direct cexp c (h.sound hmp hc) b _ t t'
  | hc2cDirect via c h b t t' => exact Props.C52_hc2c_direct via cexp c (h.sound hmp hc) b _ t t'
  | redft00Pad t => exact Reodft.redft00Pad_sound t
  | rodft00Pad t => exact Reodft.rodft00Pad_sound t
  | reodft00Split t => exact Reodft.reodft00Split_sound hc t
  | reodft010 t => exact Reodft.reodft010_sound hc t
  | reodft11Radix2 t => exact Reodft.reodft11Radix2_sound hc t
  | reodft11Odd t => exact Reodft.reodft11Odd_sound t

end FFTW.Registered
