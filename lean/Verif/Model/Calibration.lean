import Verif.Np.Basic
import Verif.Np.Vec
import Mathlib.Analysis.SpecialFunctions.Trigonometric.Basic
import Mathlib.Analysis.SpecialFunctions.Log.Base
import Mathlib.Analysis.InnerProductSpace.PiL2
import Mathlib.LinearAlgebra.Dimension.Constructions

/-!
# Model of `calibration/`

A matrix is the list of its columns; a column is a function of the sample index of which only the first `N` entries matter.
-/

namespace Verif.Model

open Verif Finset

/-- `matrix @ x`, with the matrix given by its columns. -/
noncomputable def matVec (cols : List (ℕ → ℝ)) (x : List ℝ) (n : ℕ) : ℝ :=
  ∑ j ∈ range cols.length, x.getD j 0 * (cols.getD j 0) n

/-- `np.linalg.matrix_rank` of the first `N` rows. Numpy's singular-value threshold is read as the exact rank. -/
noncomputable def rankOf (N : ℕ) (cols : List (ℕ → ℝ)) : ℕ :=
  Set.finrank ℝ (Set.range fun (j : Fin cols.length) (i : Fin N) => (cols.get j) i)

/-- `np.mean(c)` over the first `N` samples. -/
noncomputable def colMean (N : ℕ) (c : ℕ → ℝ) : ℝ := (∑ n ∈ range N, c n) / N

/-- `np.ptp(col) < 1e-15`: all differences below `1e-15` (equivalent to max - min for `N > 0`). -/
def ptpSmall (N : ℕ) (c : ℕ → ℝ) : Prop := ∀ i < N, ∀ j < N, c i - c j < 1 / 10 ^ 15

/-- Correlation of two columns. `calibration/_patch_rank_deficiency.py:82-90`. -/
noncomputable def correlation (N : ℕ) (c e : ℕ → ℝ) : ℝ :=
  let cc := fun n => c n - colMean N c
  let ec := fun n => e n - colMean N e
  let norm := Real.sqrt (colMean N fun n => cc n ^ 2) * Real.sqrt (colMean N fun n => ec n ^ 2)
  if norm < 1 / 10 ^ 15 then 0 else colMean N (fun n => cc n * ec n) / norm

/-- State of the patching loop: effective columns, the bit that opened each of them (`eff_col_to_bit`) and, per processed bit,
its entry of `bit_to_col_map` and `bit_weight_ratios`. `calibration/_patch_rank_deficiency.py:52-55`. -/
structure Patched where
  eff : List (ℕ → ℝ)
  founders : List ℕ
  links : List (ℤ × ℝ)

open Classical in
/-- First effective column correlated with `col`. `calibration/_patch_rank_deficiency.py:81-92`. -/
noncomputable def mergeTarget (N : ℕ) (col : ℕ → ℝ) (eff : List (ℕ → ℝ)) (count : ℕ) : Option ℕ :=
  (List.range count).find? fun (j : ℕ) => decide (|(|correlation N col (eff.getD j 0)|) - 1| < 1 / 1000)

open Classical in
/-- One pass of the loop. `calibration/_patch_rank_deficiency.py:57-101`. A zero nominal weight of the founding bit (`inf`/`nan`
ratio in numpy) gives ratio 0 here. -/
noncomputable def patchStep (N : ℕ) (bits : List (ℕ → ℝ)) (nominal : List ℝ) (s : Patched) (bit : ℕ) : Patched :=
  let col := bits.getD bit 0
  if ptpSmall N col then { s with links := s.links ++ [(-1, 0)] }
  else if rankOf N ((fun _ => 1) :: s.eff) < rankOf N ((fun _ => 1) :: (s.eff ++ [col])) then
    { eff := s.eff ++ [col], founders := s.founders ++ [bit], links := s.links ++ [((s.eff.length : ℤ), 1)] }
  else
    match mergeTarget N col s.eff s.founders.length with
    | none => { s with links := s.links ++ [(-1, 0)] }
    | some j =>
      let ratio := nominal.getD bit 0 / nominal.getD (s.founders.getD j 0) 0
      { s with eff := s.eff.set j (fun n => (s.eff.getD j 0) n + col n * ratio), links := s.links ++ [((j : ℤ), ratio)] }

/-- `_patch_rank_deficiency`. `calibration/_patch_rank_deficiency.py:35-108`. `bits` are the columns of the stacked matrix. -/
noncomputable def patchRank (N : ℕ) (bits : List (ℕ → ℝ)) (nominal : List ℝ) : Patched :=
  if bits.length + 1 ≤ rankOf N (bits ++ [fun _ => 1]) then
    { eff := bits, founders := List.range bits.length, links := (List.range bits.length).map fun (i : ℕ) => ((i : ℤ), (1 : ℝ)) }
  else (List.range bits.length).foldl (patchStep N bits nominal) { eff := [], founders := [], links := [] }

/-- `_recover_rank_deficiency`. `calibration/_patch_rank_deficiency.py:140-151`. -/
noncomputable def recoverRank (weff : List ℝ) (links : List (ℤ × ℝ)) : Py (List ℝ) :=
  if ∃ l ∈ links, weff.length ≤ (max l.1 0).toNat then .error .indexError
  else .ok (links.map fun l => if l.1 < 0 then 0 else weff.getD l.1.toNat 0 * l.2)

/-! ## Column scaling -/

/-- Largest magnitude in a column. `calibration/_scale_columns_for_conditioning.py:11-13` takes `max(|max|, |min|)`, which is the
same number. -/
noncomputable def colPeak (N : ℕ) (c : ℕ → ℝ) : ℝ := maxOf 0 ((List.range N).map fun (n : ℕ) => |c n|)

/-- `bit_scales[j]`. `calibration/_scale_columns_for_conditioning.py:15-20`. -/
noncomputable def colScale (N : ℕ) (c : ℕ → ℝ) : ℤ :=
  if colPeak N c ≤ 1 / 10 ^ 15 then 0 else ⌊Real.logb 10 (colPeak N c + 1 / 10 ^ 15)⌋

/-- `bits * 10.0 ** (-bit_scales)`. `calibration/_scale_columns_for_conditioning.py:27`. -/
noncomputable def scaleCols (N : ℕ) (cols : List (ℕ → ℝ)) : List (ℕ → ℝ) :=
  cols.map fun c => fun n => c n * (10 : ℝ) ^ (-colScale N c)

/-- `_recover_columns_for_conditioning`. `calibration/_scale_columns_for_conditioning.py:34-75`. -/
noncomputable def recoverScale (coeffs : List ℝ) (W : ℕ) (norm : ℝ) (scales : List ℤ) : List ℝ :=
  (List.range W).map fun (j : ℕ) => coeffs.getD j 0 / norm * (10 : ℝ) ^ (-(scales.getD j 0))

/-! ## Least squares at a known frequency -/

/-- First row of dataset `k` in the stacked matrix. -/
def segStart (lens : List ℕ) (k : ℕ) : ℕ := (lens.take k).sum

/-- A column that holds `g(t)` on the rows of dataset `k` and zero elsewhere.
`calibration/_lstsq_solver.py:152-159, 166-172`. -/
noncomputable def segCol (lens : List ℕ) (k : ℕ) (g : ℕ → ℝ) (n : ℕ) : ℝ :=
  if segStart lens k ≤ n ∧ n < segStart lens k + lens.getD k 0 then g (n - segStart lens k) else 0

/-- `phase = 2.0 * np.pi * freq * np.outer(t, harmonics)`, harmonic `h + 1`. `calibration/_lstsq_solver.py:47-49`. -/
noncomputable def harmPhase (f : ℝ) (h t : ℕ) : ℝ := 2 * Real.pi * f * ((t : ℝ) * ((h : ℝ) + 1))

/-- `cos_basis`. `calibration/_lstsq_solver.py:7-50, 143-162`. -/
noncomputable def cosCols (lens : List ℕ) (freqs : List ℝ) (H : ℕ) : List (ℕ → ℝ) :=
  (List.range lens.length).flatMap fun (k : ℕ) => (List.range H).map fun (h : ℕ) =>
    segCol lens k fun t => Real.cos (harmPhase (freqs.getD k 0) h t)

/-- `sin_basis`. `calibration/_lstsq_solver.py:7-50, 143-163`. -/
noncomputable def sinCols (lens : List ℕ) (freqs : List ℝ) (H : ℕ) : List (ℕ → ℝ) :=
  (List.range lens.length).flatMap fun (k : ℕ) => (List.range H).map fun (h : ℕ) =>
    segCol lens k fun t => Real.sin (harmPhase (freqs.getD k 0) h t)

/-- `offset_matrix`. `calibration/_lstsq_solver.py:166-172, 253-263`. -/
noncomputable def offsetCols (lens : List ℕ) : List (ℕ → ℝ) :=
  (List.range lens.length).map fun (k : ℕ) => segCol lens k fun _ => 1

/-- `np.linalg.norm(A @ x - b)` over `N` rows. -/
noncomputable def residNorm (N : ℕ) (A : List (ℕ → ℝ)) (x : List ℝ) (b : ℕ → ℝ) : ℝ :=
  Real.sqrt (∑ n ∈ range N, (matVec A x n - b n) ^ 2)

/-- `scipy.linalg.lstsq` is external: a function of the number of rows, the columns and the right-hand side. -/
abbrev Lstsq := ℕ → List (ℕ → ℝ) → (ℕ → ℝ) → List ℝ

/-- What scipy documents: one coefficient per column, and no other coefficient vector has a smaller residual. -/
structure IsLstsq (solve : Lstsq) : Prop where
  len : ∀ N A b, (solve N A b).length = A.length
  opt : ∀ N A b y, residNorm N A (solve N A b) b ≤ residNorm N A y b

/-- `_dual_basis_lstsq`. `calibration/_lstsq_solver.py:61-99`. The second component is the basis choice (0 cosine, 1 sine). With
no harmonic column `cos_basis[:, 0]` raises `IndexError`. -/
noncomputable def dualBasis (solve : Lstsq) (N : ℕ) (common offs derivs cos sin : List (ℕ → ℝ)) : Py (List ℝ × ℕ) :=
  match cos, sin with
  | c0 :: ct, s0 :: st =>
    let A1 := common ++ offs ++ derivs ++ ct ++ (s0 :: st)
    let b1 := fun n => -c0 n
    let x1 := solve N A1 b1
    let A2 := common ++ offs ++ derivs ++ st ++ (c0 :: ct)
    let b2 := fun n => -s0 n
    let x2 := solve N A2 b2
    if residNorm N A1 x1 b1 < residNorm N A2 x2 b2 then .ok (x1, 0) else .ok (x2, 1)
  | _, _ => .error .indexError

/-- `_solve_weights_with_known_freq`. `calibration/_lstsq_solver.py:102-183`. -/
noncomputable def solveKnown (solve : Lstsq) (lens : List ℕ) (common : List (ℕ → ℝ)) (freqs : List ℝ) (H : ℕ) : Py (List ℝ × ℕ) :=
  dualBasis solve lens.sum common (offsetCols lens) [] (cosCols lens freqs H) (sinCols lens freqs H)

/-! ## Frequency search -/

/-- `cos_coeffs_k`, `sin_coeffs_k` as read in the search. `calibration/_lstsq_solver.py:285-302`. -/
noncomputable def searchCoeffs (W K H : ℕ) (coeffs : List ℝ) (choice k : ℕ) : List ℝ × List ℝ :=
  let hs := W + K
  let unity := K * H - 1
  if choice = 0 then
    let hIdx := hs + k * (H - 1)
    let sIdx := hs + unity + k * H
    (1 :: slice coeffs hIdx (hIdx + H - 1), slice coeffs sIdx (sIdx + H))
  else
    let sIdx := hs + k * H - 1
    let cIdx := hs + unity + k * H
    (slice coeffs cIdx (cIdx + H), slice coeffs sIdx (sIdx + H))

/-- `deriv_col_full` of dataset `k`. `calibration/_lstsq_solver.py:304-323`. -/
noncomputable def derivCol (lens : List ℕ) (freqs : List ℝ) (H : ℕ) (cs : List ℝ × List ℝ) (k : ℕ) : ℕ → ℝ :=
  segCol lens k fun t =>
    (∑ h ∈ range H, (-2 * Real.pi * (cs.1.getD h 0 * ((h : ℝ) + 1)) * t * Real.sin (harmPhase (freqs.getD k 0) h t)
      + 2 * Real.pi * (cs.2.getD h 0 * ((h : ℝ) + 1)) * t * Real.cos (harmPhase (freqs.getD k 0) h t))) / (lens.getD k 0 : ℝ)

/-- Result of one search iteration: fitted vector, basis choice, `delta_f_raw`, `relerr`. -/
structure SearchIter where
  coeffs : List ℝ
  choice : ℕ
  dfRaw : List ℝ
  relerr : ℝ

/-- One iteration of the search at frequencies `freqs`. `calibration/_lstsq_solver.py:269-347`. `delta_f_raw` is the slice
`coeffs[-num_datasets:]` (line 340). -/
noncomputable def searchIter (solve : Lstsq) (lens : List ℕ) (common : List (ℕ → ℝ)) (freqs : List ℝ) (H : ℕ) (lr : ℝ) : Py SearchIter :=
  match solveKnown solve lens common freqs H with
  | .error e => .error e
  | .ok (ct, bt) =>
    let K := lens.length
    let W := common.length
    let N := lens.sum
    let derivs := (List.range K).map fun (k : ℕ) => derivCol lens freqs H (searchCoeffs W K H ct bt k) k
    match dualBasis solve N common (offsetCols lens) derivs (cosCols lens freqs H) (sinCols lens freqs H) with
    | .error e => .error e
    | .ok (c, b) =>
      let raw := c.drop (c.length - K)
      let w0 := Real.sqrt (1 + c.getD (W + K + (K * H - 1)) 0 ^ 2)
      let rel := Real.sqrt (colMean N fun n => matVec derivs (raw.map fun v => v * lr) n ^ 2) / w0
      .ok { coeffs := c, choice := b, dfRaw := raw, relerr := rel }

/-- `delta_f_array = delta_f_raw * learning_rate / segment_lengths`. `calibration/_lstsq_solver.py:341`. -/
noncomputable def nextDelta (lens : List ℕ) (lr : ℝ) (raw : List ℝ) : List ℝ :=
  (List.range lens.length).map fun (k : ℕ) => raw.getD k 0 * lr / (lens.getD k 0 : ℝ)

/-- The search loop with `fuel` iterations left. `calibration/_lstsq_solver.py:265-363`. Returns the frequencies, `coeffs[:-K]` and
the basis choice. With `max_iter = 0` the code slices `None`: `TypeError`. -/
noncomputable def searchLoop (solve : Lstsq) (lens : List ℕ) (common : List (ℕ → ℝ)) (H : ℕ) (lr reltol : ℝ) :
    ℕ → List ℝ → List ℝ → Option (List ℝ × ℕ) → Py (List ℝ × List ℝ × ℕ)
  | 0, _, _, none => .error .typeError
  | 0, freqs, _, some (c, b) => .ok (freqs, c.take (c.length - lens.length), b)
  | fuel + 1, freqs, delta, _ =>
    let f := (List.range lens.length).map fun (k : ℕ) => freqs.getD k 0 + delta.getD k 0
    match searchIter solve lens common f H lr with
    | .error e => .error e
    | .ok it =>
      if it.relerr < reltol then .ok (f, it.coeffs.take (it.coeffs.length - lens.length), it.choice)
      else searchLoop solve lens common H lr reltol fuel f (nextDelta lens lr it.dfRaw) (some (it.coeffs, it.choice))

/-! ## Result assembly -/

/-- `_reconstruct_sine_k`. `calibration/_post_process.py:100-137`, evaluated at row `n` of the stacked bases. -/
noncomputable def reconstructSine (lens : List ℕ) (freqs : List ℝ) (W H : ℕ) (x : List ℝ) (choice : ℕ) (norm : ℝ) (k n : ℕ) : ℝ :=
  let K := lens.length
  let hs := W + K
  let hIdx := hs + k * (H - 1)
  let oIdx := hs + (K * H - 1) + k * H
  let unity := 1 :: slice x hIdx (hIdx + H - 1)
  let other := slice x oIdx (oIdx + H)
  let cs := if choice = 0 then (unity, other) else (other, unity)
  let cosB := slice (cosCols lens freqs H) (k * H) ((k + 1) * H)
  let sinB := slice (sinCols lens freqs H) (k * H) ((k + 1) * H)
  (-(matVec cosB cs.1 n + matVec sinB cs.2 n)) / norm

/-- Calibration result. `calibration/_post_process.py:88-98` (`resid` is the entry `'error'`); lists have one entry per dataset. -/
structure CalResult where
  weight : List ℝ
  offset : ℝ
  signal : List (List ℝ)
  ideal : List (List ℝ)
  resid : List (List ℝ)
  freq : List ℝ
  snr : List ℝ
  enob : List ℝ

/-- `np.mean` of a list of squares. -/
noncomputable def meanSq (l : List ℝ) : ℝ := (l.map fun v => v ^ 2).sum / l.length

/-- `sndr_k`. `calibration/_post_process.py:64-66`. -/
noncomputable def sndrOf (ref err : List ℝ) : ℝ :=
  if 0 < meanSq err then 10 * Real.logb 10 (meanSq ref / meanSq err) else 200

/-- `_post_process`. `calibration/_post_process.py:11-98`. `bits` are the columns of the stacked original bit matrix. -/
noncomputable def postProcess (lens : List ℕ) (freqs : List ℝ) (bits : List (ℕ → ℝ)) (weights : List ℝ) (W H : ℕ) (x : List ℝ)
    (choice : ℕ) (norm : ℝ) : CalResult :=
  let off := -(x.getD W 0) / norm
  let rows := fun (k : ℕ) => (List.range (lens.getD k 0)).map fun (t : ℕ) => segStart lens k + t
  let sig := fun (k : ℕ) => (rows k).map fun (n : ℕ) => matVec bits weights n
  let ref := fun (k : ℕ) => (rows k).map fun (n : ℕ) => reconstructSine lens freqs W H x choice norm k n
  let err := fun (k : ℕ) => (rows k).map fun (n : ℕ) => matVec bits weights n - off - reconstructSine lens freqs W H x choice norm k n
  let pol : ℝ := if weights.sum < 0 then -1 else 1
  let ks := List.range lens.length
  let snr := ks.map fun (k : ℕ) => sndrOf (ref k) (err k)
  { weight := weights.map fun v => v * pol
    offset := off * pol
    signal := ks.map fun (k : ℕ) => (sig k).map fun v => v * pol
    ideal := ks.map fun (k : ℕ) => (ref k).map fun v => v * pol
    resid := ks.map fun (k : ℕ) => (err k).map fun v => v * pol
    freq := freqs
    snr := snr
    enob := snr.map fun v => (v - 176 / 100) / (602 / 100) }

/-! ## Input preparation and the public function -/

section

variable {K : Type} [Field K]

/-- One dataset, oriented: `segment.T` when it has fewer rows than columns. `calibration/_prepare_input.py:84-89`. -/
def orientSegment (seg : List (List K)) : List (List K) :=
  if seg.length < (seg.headD []).length then (List.range (seg.headD []).length).map fun (j : ℕ) => seg.map fun r => r.getD j 0 else seg

/-- The loop over datasets. `calibration/_prepare_input.py:66-110`; `width` is `bit_width` (`None` before the first). -/
def stackSegments : Option ℕ → List (List (List K)) → Py (List (List (List K)) × Option ℕ)
  | width, [] => .ok ([], width)
  | width, seg :: rest =>
    if seg = [] ∨ seg.headD [] = [] then .error .valueError
    else
      let s := orientSegment seg
      let m := (s.headD []).length
      match width with
      | some w => if m ≠ w then .error .valueError else
          match stackSegments (some w) rest with
          | .error e => .error e
          | .ok (l, w') => .ok (s :: l, w')
      | none =>
          match stackSegments (some m) rest with
          | .error e => .error e
          | .ok (l, w') => .ok (s :: l, w')

/-- `_setup_nominal_weights`. `calibration/_prepare_input.py:131-144`. -/
def nominalWeights (width : ℕ) (given : Option (List K)) : Py (List K) :=
  match given with
  | none => .ok ((List.range width).map fun (i : ℕ) => (2 : K) ^ (width - 1 - i))
  | some w => if w.length ≠ width then .error .valueError else .ok w

/-- `_prepare_input`. `calibration/_prepare_input.py:9-33`: oriented datasets, bit width, nominal weights. -/
def prepareInput (segs : List (List (List K))) (given : Option (List K)) : Py (List (List (List K)) × ℕ × List K) :=
  if segs = [] then .error .valueError
  else
    match stackSegments none segs with
    | .error e => .error e
    | .ok (l, w) =>
      match nominalWeights (w.getD 0) given with
      | .error e => .error e
      | .ok nom => .ok (l, w.getD 0, nom)

end

/-- The `freq` argument: omitted, one number, or one per dataset. -/
inductive FreqArg where
  | auto
  | scalar (f : ℝ)
  | list (fs : List ℝ)

/-- The frequencies listed in a `freq` argument. -/
def FreqArg.values : FreqArg → List ℝ
  | .auto => []
  | .scalar f => [f]
  | .list fs => fs

/-- `_estimate_frequencies`, part 1. `calibration/_estimate_frequencies.py:31-43`. The automatic estimate (lines 45-102, needs the
spectrum engine and `estimate_frequency`) is the parameter `est`. -/
noncomputable def estimateFrequencies (count : ℕ) (est : List ℝ) : FreqArg → Py (List ℝ)
  | .auto => .ok est
  | .scalar f => if f = 0 then .ok est else .ok (List.replicate count f)
  | .list fs => if ∀ f ∈ fs, f = 0 then .ok est else if fs.length ≠ count then .error .valueError else .ok fs

open Classical in
/-- Whether the iterative frequency search runs. `calibration/calibrate_weight_sine.py:121,132-135`: `values` is the `freq` argument
(`np.all(freq == 0)` is also true of an empty one, and `freq is None` counts as automatic), `fa` the frequencies in use. -/
noncomputable def searchWanted (force : Option Bool) (values fa : List ℝ) : Bool :=
  force.getD (decide (∀ f ∈ values, f = 0)) || decide (∃ f ∈ fa, f = 0)

open Classical in
/-- `calibrate_weight_sine`. `calibration/calibrate_weight_sine.py:94-182`. -/
noncomputable def calibrate (solve : Lstsq) (est : List ℝ) (segs : List (List (List ℝ))) (freq : FreqArg) (force : Option Bool)
    (given : Option (List ℝ)) (H : ℕ) (lr reltol : ℝ) (maxIter : ℕ) : Py CalResult :=
  if ∃ f ∈ freq.values, 1 / 2 < f then .error .valueError
  else
    match prepareInput segs given with
    | .error e => .error e
    | .ok (segs', width, nominal) =>
      let lens := segs'.map List.length
      let N := lens.sum
      let rows := segs'.flatten
      let bits := (List.range width).map fun (j : ℕ) => fun (n : ℕ) => (rows.getD n []).getD j 0
      let P := patchRank N bits nominal
      let scaled := scaleCols N P.eff
      let scales := P.eff.map (colScale N)
      match estimateFrequencies lens.length est freq with
      | .error e => .error e
      | .ok fa =>
        let sol := if searchWanted force freq.values fa then searchLoop solve lens scaled H lr reltol maxIter fa (List.replicate lens.length 0) none
          else match solveKnown solve lens scaled fa H with
            | .error e => .error e
            | .ok (c, b) => .ok (fa, c, b)
        match sol with
        | .error e => .error e
        | .ok (fa', c, b) =>
          let W := P.eff.length
          let norm := Real.sqrt (1 + c.getD (W + lens.length * H) 0 ^ 2)
          let wp := recoverScale c W norm scales
          match recoverRank wp P.links with
          | .error e => .error e
          | .ok w => .ok (postProcess lens fa' bits w W H c b norm)

/-- `calibrate_weight_sine_lite`. `calibration/calibrate_weight_sine_lite.py:6-43`; `bits` are the columns of the `N`-row matrix. -/
noncomputable def calibrateLite (solve : Lstsq) (N : ℕ) (bits : List (ℕ → ℝ)) (freq : ℝ) : Py (List ℝ) :=
  if 1 / 2 < freq then .error .valueError
  else
    let c := solve N (bits ++ [(fun _ => 1), fun (n : ℕ) => Real.sin (2 * Real.pi * freq * n)]) (fun n => -Real.cos (2 * Real.pi * freq * n))
    let norm := Real.sqrt (1 + c.getD (c.length - 1) 0 ^ 2)
    let w := (c.take bits.length).map fun v => v / norm
    .ok (if w.sum < 0 then w.map fun v => -v else w)

end Verif.Model
