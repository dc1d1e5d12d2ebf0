import Verif.Memory.Lang

/-!
# The memory effects of the functions of RM-Tools (C248)

For each function the statements that make, share or change arrays, dictionaries and headers, in their order. Numbers, strings, log output and statements
that only read are left out. Early returns are covered by `Passes`.
-/

namespace Verif.Memory

open Stmt

/-! ## `do_rmsynth_planes`, `/repo/RMutils/util_RM.py` 97-220 -/

inductive SynthVar | dataQ | dataU | lamSq | phi | weight | pCube | mskCube | mskPlanes | weightCube | K | a | fdf | zero
  deriving DecidableEq

open SynthVar in
/-- Lines 131-220. -/
def synthPlanes : Stmt SynthVar := block [
  opt [fresh weight],                                  -- 131-132: weightArr = np.ones(...)
  fresh weight,                                        -- 133: np.where
  opt [reshape dataQ dataQ, reshape dataU dataU],      -- 157-163
  fresh pCube, fresh mskCube, fresh pCube,             -- 167-171
  fresh mskPlanes, fresh mskPlanes,                    -- 174-175
  write weight,                                        -- 176: weightArr *= mskPlanes
  fresh weightCube, fresh K, write K, fresh K,         -- 188-192
  fresh a, fresh fdf, view fdf fdf,                    -- 200-209, with .T
  fresh zero, write fdf,                               -- 213-214
  opt [reshape fdf fdf],                               -- 217-220
  view fdf fdf]                                        -- 223: np.squeeze

/-! ## `get_rmsf_planes`, `/repo/RMutils/util_RM.py` 244-462 -/

inductive RmsfVar | lamSq | phi | weight | msk | phi2 | resamp | xySum | mskPlanes | totals | a | b | rmsf1 | rmsf | fwhm | stat | weightCube | K
  deriving DecidableEq

open RmsfVar in
/-- Lines 288-462. `fit_rmsf` (812-866) makes new arrays only. -/
def rmsfPlanes : Stmt RmsfVar := block [
  choice (block [fresh resamp, fresh phi2]) (view phi2 phi),   -- 288-294
  opt [fresh weight], fresh weight,                            -- 297-299
  fresh msk,                                                   -- 302-306: zeros_like or astype
  opt [reshape msk msk],                                       -- 325-331
  fresh xySum, fresh mskPlanes, write weight,                  -- 335-337
  fresh totals, opt [write totals], opt [write totals],        -- 340-348
  choice
    (block [fresh a, fresh b, fresh rmsf1, fresh rmsf, fresh fwhm, fresh stat])          -- 364-388
    (block [fresh weightCube, fresh K, write K, fresh K, fresh a, fresh rmsf, view rmsf rmsf,   -- 392-410
      fresh fwhm, fresh stat,                                                            -- 417-418
      opt [loop (opt [write fwhm, write stat])]]),                                       -- 421-434
  view rmsf rmsf, view fwhm fwhm, view stat stat,                                        -- 437-439
  opt [reshape rmsf rmsf, reshape fwhm fwhm, reshape stat stat]]                         -- 442-447

/-! ## RM-CLEAN, `/repo/RMutils/util_RM.py` 472-785 -/

inductive LoopVar | dirty | dirty1 | rmsf | rmsf1 | fwhm | fwhm1 | phi | phi2 | iterCount | resid | cc | clean | shifted | mask | maskedResid
  deriving DecidableEq

open LoopVar in
/-- `_cleanloop`, lines 687-775. `np.ma.array` (738, 772) shares the memory of `residFDF`. -/
def cleanloop : Stmt LoopVar := block [
  view dirty1 dirty,                                   -- 688
  fresh resid, fresh cc, fresh clean,                  -- 690-692
  view rmsf1 rmsf, view fwhm1 fwhm,                    -- 693-694
  loop (block [write cc, fresh shifted, view shifted shifted, write resid, write clean, write iterCount]),   -- 704-728
  fresh mask, loop (write mask),                       -- 731-737
  view maskedResid resid,                              -- 738
  loop (block [write cc, fresh shifted, view shifted shifted, write resid, write clean, write iterCount,     -- 740-769
    view maskedResid resid]),                          -- 772
  view clean clean, view resid resid, view cc cc]      -- 774-776

inductive HogbomVar | dirty | phi | rmsf | phi2 | fwhm | msk | iterCount | absFdf | mskCutoff | coords | resid | cc | clean | output | out1 | out2 | out3
  | inner (v : LoopVar)
  deriving DecidableEq

open HogbomVar in
/-- `do_rmclean_hogbom` without a pool, lines 531-640. The object `rmc` holds its arguments. -/
def hogbom : Stmt HogbomVar := block [
  opt [fresh msk],                                                                   -- 550
  opt [reshape dirty dirty, reshape rmsf rmsf, reshape msk msk, reshape fwhm fwhm],  -- 553-562
  fresh iterCount,                                                                   -- 563
  fresh absFdf, fresh mskCutoff, fresh coords, view coords coords,                   -- 566-568
  fresh resid, fresh cc, fresh clean, fresh output,                                  -- 579-600
  loop (block [
    call inner [(.dirty, dirty), (.rmsf, rmsf), (.fwhm, fwhm), (.phi, phi), (.phi2, phi2), (.iterCount, iterCount)] cleanloop
      [(out1, .clean), (out2, .resid), (out3, .cc)],
    write output]),                                                                  -- 601-602
  loop (block [write cc, write clean, write resid]),                                 -- 621-626
  write clean,                                                                       -- 630
  view clean clean, view cc cc, view iterCount iterCount, view resid resid]          -- 633-636

/-! ## `measure_FDF_parms`, `/repo/RMutils/util_RM.py` 980-1146 -/

inductive PeakVar | fdf | phi | lamSq | absFdf | masked | mDict
  deriving DecidableEq

open PeakVar in
/-- Lines 997-1146. -/
def peakParms : Stmt PeakVar := block [fresh absFdf, fresh masked, write masked, fresh masked, fresh mDict]   -- 997, 1007-1009, 1093

/-! ## `create_frac_spectra`, `/repo/RMutils/util_misc.py` 706-844 -/

inductive FracVar | freq | iArr | qArr | uArr | dI | dQ | dU | model | iMod | q | u | dq | du | params
  deriving DecidableEq

open FracVar in
/-- Lines 749-844. The arguments of the fit are copies (`astype`, 756-758), so the fit is left out. -/
def fracSpectra : Stmt FracVar := block [
  choice (block [fresh params, fresh iMod]) (block [view iMod model, fresh params]),     -- 749-816
  fresh q, fresh u, fresh q, fresh u, fresh dq, fresh du, fresh dq, fresh du]            -- 820-842

/-! ## `calc_sigma_add`, `/repo/RMutils/util_RM.py` 1150-1215 -/

inductive AddVar | x | y | dy | sigma | chiSq | lnSum | total | red | lnProb | prob | cpdf | mDict | pDict
  deriving DecidableEq

open AddVar in
/-- Lines 1164-1215. -/
def sigmaAdd : Stmt AddVar := block [
  fresh sigma, fresh chiSq, fresh lnSum,                                   -- 1165-1172
  loop (block [fresh total, write lnSum, write chiSq]),                    -- 1173-1176
  fresh red, fresh lnProb, write lnProb, fresh prob, write prob,           -- 1178-1192
  fresh cpdf, fresh mDict, fresh pDict]                                    -- 1195-1215

inductive CompVar | freq | q | u | dq | du | qMod | uMod | lamSq | qRes | uRes | mDict | pDict | y | dy | inner (v : AddVar)
  deriving DecidableEq

open CompVar in
/-- `measure_qu_complexity`, `/repo/RMutils/util_RM.py` 1353-1410: three times the additional scatter. -/
def quComplexity : Stmt CompVar := block [
  fresh qMod, fresh uMod, fresh lamSq, fresh qRes, fresh uRes, fresh mDict, fresh pDict,               -- 1357-1372
  block (List.replicate 3 (block [fresh y, fresh dy, call inner [(.x, lamSq), (.y, y), (.dy, dy)] sigmaAdd [],
    write mDict, write pDict]))]                                                                       -- 1373-1402

/-! ## `run_rmsynth`, `/repo/RMtools_1D/do_RMsynth_1D.py` 55-530 -/

inductive Run1Var | freq | iArr | qArr | uArr | dI | dQ | dU | model | iMod | q | u | dq | du | dqu | lamSq | phi | weight | fdf | rmsf | phi2 | fwhm
  | stat | msk | mDict | mD | good | aPhi | aPhi2 | aRmsf | aFreq | aWeight | aFdf
  | inFrac (v : FracVar) | inSynth (v : SynthVar) | inRmsf (v : RmsfVar) | inPeak (v : PeakVar) | inComp (v : CompVar)
  deriving DecidableEq

open Run1Var in
/-- Lines 135-530, without figures. -/
def run1D : Stmt Run1Var := block [
  opt [fresh iArr, fresh dI],                                              -- 176-177
  call inFrac [(.freq, freq), (.iArr, iArr), (.qArr, qArr), (.uArr, uArr), (.dI, dI), (.dQ, dQ), (.dU, dU), (.model, model)] fracSpectra
    [(iMod, .iMod), (q, .q), (u, .u), (dq, .dq), (du, .du)],               -- 184-197
  fresh dqu, fresh dqu, fresh lamSq, fresh phi, fresh phi, fresh weight,   -- 199-200, 261, 284-285, 293-297
  call inSynth [(.dataQ, q), (.dataU, u), (.lamSq, lamSq), (.phi, phi), (.weight, weight)] synthPlanes [(fdf, .fdf)],           -- 304-313
  fresh msk,
  call inRmsf [(.lamSq, lamSq), (.phi, phi), (.weight, weight), (.msk, msk)] rmsfPlanes [(rmsf, .rmsf), (phi2, .phi2), (fwhm, .fwhm), (stat, .stat)],   -- 316-328
  write fdf,                                                               -- 365: dirtyFDF *= Ifreq0
  fresh weight,                                                            -- 368
  call inPeak [(.fdf, fdf), (.phi, phi), (.lamSq, lamSq)] peakParms [(mDict, .mDict)],                                         -- 375-382
  write mDict, fresh good, write mDict,                                    -- 383-415
  call inComp [(.freq, freq), (.q, q), (.u, u), (.dq, dq), (.du, du)] quComplexity [(mD, .mDict)],                          -- 416-425
  write mDict,                                                             -- 426
  fresh aPhi, fresh aPhi2, fresh aRmsf, fresh aFreq, fresh aWeight, fresh aFdf]                                           -- 457-462: astype

/-! ## `run_rmclean`, `/repo/RMtools_1D/do_RMclean_1D.py` 50-280 -/

inductive Clean1Var | mDict | phi | freq | weight | dirty | phi2 | rmsf | lamSq | fwhm | clean | cc | iterCount | resid | mDictCl | aDictCl | outPhi
  | outFreq | inClean (v : HogbomVar) | inPeak (v : PeakVar)
  deriving DecidableEq

open Clean1Var in
/-- Lines 88-280. `phi` … `rmsf` are the arrays in `aDict`; `outPhi`, `outFreq` are two of the arrays in the result (273-274). -/
def clean1D : Stmt Clean1Var := block [
  fresh lamSq, fresh fwhm,                                                 -- 95, 136
  call inClean [(.dirty, dirty), (.phi, phi), (.rmsf, rmsf), (.phi2, phi2), (.fwhm, fwhm)] hogbom
    [(clean, .clean), (cc, .cc), (iterCount, .iterCount), (resid, .resid)],          -- 131-143
  call inPeak [(.fdf, clean), (.phi, phi), (.lamSq, lamSq)] peakParms [(mDictCl, .mDict)],   -- 168-175
  write mDictCl, fresh aDictCl, write aDictCl,                             -- 176-192, 272-278
  view outPhi phi, view outFreq freq]

/-! ## `run_rmsynth`, `/repo/RMtools_3D/do_RMsynth_3D.py` 57-270 -/

inductive Run3Var | dataQ | dataU | dataI | freq | rms | lamSq | phi | weight | q | u | fdf | msk | rmsf | phi2 | fwhm | stat | i0
  | inSynth (v : SynthVar) | inRmsf (v : RmsfVar)
  deriving DecidableEq

open Run3Var in
/-- Lines 140-270. -/
def run3D : Stmt Run3Var := block [
  fresh lamSq, fresh phi, fresh phi, fresh weight,                                                         -- 143, 167-168, 177-180
  choice (block [fresh q, fresh u]) (block [view q dataQ, view u dataU]),                                  -- 187-193
  opt [call inSynth [(.dataQ, q), (.dataU, u), (.lamSq, lamSq), (.phi, phi), (.weight, weight)] synthPlanes [(fdf, .fdf)]],          -- 197-205
  opt [fresh msk, call inRmsf [(.lamSq, lamSq), (.phi, phi), (.weight, weight), (.msk, msk)] rmsfPlanes
    [(rmsf, .rmsf), (phi2, .phi2), (fwhm, .fwhm), (stat, .stat)]]]                                         -- 212-224

open Run3Var in
/-- Lines 240-251, reached with a Stokes I cube if the spectra have been computed (`FDFcube` of 197 exists). -/
def run3Dscaled : Stmt Run3Var := block [
  fresh lamSq, fresh phi, fresh phi, fresh weight, fresh q, fresh u,
  call inSynth [(.dataQ, q), (.dataU, u), (.lamSq, lamSq), (.phi, phi), (.weight, weight)] synthPlanes [(fdf, .fdf)],
  opt [fresh msk, call inRmsf [(.lamSq, lamSq), (.phi, phi), (.weight, weight), (.msk, msk)] rmsfPlanes
    [(rmsf, .rmsf), (phi2, .phi2), (fwhm, .fwhm), (stat, .stat)]],
  choice (fresh i0) (view i0 dataI),                                                                       -- 243-248
  write fdf]                                                                                               -- 251: FDFcube *= Ifreq0Arr

/-! ## `create_peak_maps` and `writefits`, `/repo/RMtools_3D/do_RMsynth_3D.py` 272-712 -/

inductive WriteVar | fdf | phi | rmsf | phi2 | fwhm | template | header | axes | fwhmHeader | maxPI | peakRM
  deriving DecidableEq

open WriteVar in
/-- `_setStokes` (664-682): a changed copy. -/
def setStokes : Stmt WriteVar := block [fresh header, write header]

open WriteVar in
/-- Lines 363-648. Files are left out. -/
def writefits : Stmt WriteVar := block [
  fresh header, write header,                                              -- 367: headtemplate.copy(); 381-389
  fresh axes, write axes,                                                  -- 396-402
  opt [write header],                                                      -- 404-405
  opt [write header, reshape fdf fdf, view fdf fdf,                        -- 409-422
    setStokes, setStokes, setStokes, write header],                        -- 424-464
  opt [reshape rmsf rmsf, view rmsf rmsf, write header,                    -- 480-495
    fresh fwhmHeader, write fwhmHeader,                                    -- 498-502: copy, then changed in place
    setStokes, setStokes, setStokes, write header],                        -- 504-553
  opt [fresh maxPI, fresh peakRM, write peakRM,                            -- 583, 701-708
    write header, fresh maxPI, fresh peakRM, write peakRM, write header]]  -- 585-648

/-! ## Adjoint RM synthesis, `/repo/RMtools_1D/rmtools_bwdepol.py` 812-955 -/

inductive AdjVar | dataQ | dataU | freq | phi | weight | widths | lamSq | pCube | mskCube | mskPlanes | fdf | weightCube | K | r | arg | outFreq
  deriving DecidableEq

open AdjVar in
/-- `do_adjoint_rmsynth_planes`, lines 864-955; `outFreq` is the frequency array in the returned list `adjoint_vars` (952). -/
def adjointPlanes : Stmt AdjVar := block [
  fresh lamSq, opt [fresh weight], fresh weight,                           -- 864-868
  opt [reshape dataQ dataQ, reshape dataU dataU],                          -- 892-897
  fresh pCube, fresh mskCube, fresh pCube,                                 -- 901-905
  fresh mskPlanes, fresh mskPlanes, write weight,                          -- 908-910
  fresh fdf,                                                               -- 916
  fresh weightCube, fresh K, write K, fresh K,                             -- 926-930
  opt [fresh widths],                                                      -- 938-939
  loop (block [fresh r, fresh arg, write fdf]),                            -- 940-949
  view outFreq freq,                                                       -- 952
  view fdf fdf]                                                            -- 955

/-! ## `make_model_I`, `/repo/RMtools_3D/do_fitIcube.py` 447-655, and its helpers -/

inductive FitVar | cube | header | rms | msk | mskArr | coords | model | coeffs | errors | ref | covars | squeezed | src | results | headCoeff | headMask
  | headFreq | headCovar | headModel
  deriving DecidableEq

open FitVar in
/-- `savefits_mask` (332-351): `remove_header_third_fourth_axis` (`/repo/RMutils/util_misc.py` 127-178) changes its argument and returns it. -/
def saveMask : Stmt FitVar := block [write headCoeff, view headMask headCoeff, write headMask]

open FitVar in
/-- Lines 491-655. -/
def fitCube : Stmt FitVar := block [
  fresh rms, fresh msk, loop (block [write rms, write msk]),               -- 493, 289-325
  fresh mskArr, opt [fresh msk, fresh mskArr],                             -- 495-499
  fresh coords, view coords coords,                                        -- 501
  fresh model, write model,                                                -- 512-513
  fresh coeffs, fresh errors, fresh ref, view ref ref, fresh covars,       -- 516-520
  view squeezed cube,                                                      -- 521
  fresh src, view src src, fresh results,                                  -- 524-562
  fresh headCoeff, write headCoeff, write headCoeff,                       -- 565-566: header.copy(), changed in place
  loop (block [write model, write ref, write covars, write coeffs, write errors]),   -- 572-583
  write headCoeff,                                                         -- 585-591
  saveMask,                                                                -- 595-601
  write headCoeff,                                                         -- 605-612: savefits_Coeffs changes its argument
  fresh headFreq, write headFreq, write headCoeff,                         -- 615-618
  fresh headCovar, write headCovar,                                        -- 627-640
  fresh headModel, write headModel]                                        -- 647: strip_fits_dims copies (util_FITS.py 185)

/-! ## Functions that change what they are given -/

inductive SaveVar | arrays | dict
  deriving DecidableEq

open SaveVar in
/-- `saveOutput`, `/repo/RMtools_1D/do_RMsynth_1D.py` 591-656 and `/repo/RMtools_1D/do_RMclean_1D.py` 283-336: values of the dictionary are replaced by
plain Python values. -/
def saveOutput : Stmt SaveVar := loop (write dict)

inductive HeadVar | header | out
  deriving DecidableEq

open HeadVar in
/-- `remove_header_third_fourth_axis`, `/repo/RMutils/util_misc.py` 127-178 (and `update_position_wcsaxes`, 92-124). -/
def removeAxes : Stmt HeadVar := block [loop (write header), write header, write header, write header, view out header]

inductive WrapVar | chains | out
  deriving DecidableEq

open WrapVar in
/-- `wrap_chains`, `/repo/RMtools_1D/do_QUfit_1D_mnest.py` 652-672. -/
def wrapChains : Stmt WrapVar := block [loop (write chains), view out chains]

end Verif.Memory
