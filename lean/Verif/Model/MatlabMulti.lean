import Verif.Model.MatlabCal

/-!
# Model of `matlab/src/wcalsin.m`, several datasets in a cell array

Conventions of `Model/MatlabCal.lean`; datasets, columns and samples count from zero here.
-/

namespace Verif.Model

open Verif Finset

/-- `xc` or `xs` for all datasets: column `k*order + h` holds harmonic `h` on the rows of dataset `k` and zero elsewhere.
`matlab/src/wcalsin.m:226-240`; `lens` is `Nk`, `g f h` the function put in. -/
noncomputable def mlBlocks (lens : List ℕ) (fs : List ℝ) (H : ℕ) (g : ℝ → ℕ → ℕ → ℝ) : List (ℕ → ℝ) :=
  (List.range lens.length).flatMap fun (k : ℕ) => (List.range H).map fun (h : ℕ) => segCol lens k (g (fs.getD k 0) h)

/-- `A1`, `b` (`sine = false`) or `A2`, `b`. `matlab/src/wcalsin.m:242-249`. -/
noncomputable def mlMultiMatrix (cols xc xs : List (ℕ → ℝ)) (sine : Bool) : List (ℕ → ℝ) × (ℕ → ℝ) :=
  if sine then (cols ++ [fun _ => 1] ++ xs.tail ++ xc, fun n => -(xs.headD 0) n)
  else (cols ++ [fun _ => 1] ++ xc.tail ++ xs, fun n => -(xc.headD 0) n)

/-- `x` and `sel`; both residuals are taken against the second `b`. `matlab/src/wcalsin.m:242-257`. -/
noncomputable def mlMultiFit (solve : Lstsq) (N : ℕ) (cols xc xs : List (ℕ → ℝ)) : List ℝ × Bool :=
  let A1 := mlMultiMatrix cols xc xs false
  let x1 := solve N A1.1 A1.2
  let A2 := mlMultiMatrix cols xc xs true
  let x2 := solve N A2.1 A2.2
  if mlFitRms N (A1.1, A2.2) x1 < mlFitRms N A2 x2 then (x1, false) else (x2, true)

/-- Row `n` of `ideal{1}`; `u` are the columns of the unity basis, `o` the others, `L` is `numHCols`. `matlab/src/wcalsin.m:272-276`. -/
noncomputable def mlIdealFirst (M L H : ℕ) (u o : List (ℕ → ℝ)) (x : List ℝ) (w0 : ℝ) (n : ℕ) : ℝ :=
  -((u.getD 0 0) n + ∑ h ∈ range (H - 1), (u.getD (h + 1) 0) n * x.getD (M + 1 + h) 0 + ∑ h ∈ range H, (o.getD h 0) n * x.getD (M + L + h) 0) / w0

/-- Row `n` of `ideal{k+1}`, `0 < k`. `matlab/src/wcalsin.m:278-289`. -/
noncomputable def mlIdealNext (M L H k : ℕ) (u o : List (ℕ → ℝ)) (x : List ℝ) (w0 : ℝ) (n : ℕ) : ℝ :=
  -(∑ h ∈ range H, (u.getD (k * H + h) 0) n * x.getD (M + k * H + h) 0
    + ∑ h ∈ range H, (o.getD (k * H + h) 0) n * x.getD (M + L + k * H + h) 0) / w0

/-- What `wcalsin` returns for a cell array. `matlab/src/wcalsin.m:1` and `262-305`. -/
structure MlMultiCal where
  weight : List ℝ
  offset : ℝ
  postcal : List (List ℝ)
  ideal : List (List ℝ)
  err : List (List ℝ)
  freqcal : List ℝ

/-- The results from the fit. `matlab/src/wcalsin.m:259-305`; `bits` are the columns of `bits_all`, so that dataset `k` is its rows from `segStart lens k` on;
`pol` is the sign flip of lines 297-305. -/
noncomputable def mlMultiResult (lens : List ℕ) (bits : List (ℕ → ℝ)) (P : Patched) (fs : List ℝ) (H : ℕ) (xc xs : List (ℕ → ℝ)) (x : List ℝ) (sel : Bool) :
    MlMultiCal :=
  let M := P.eff.length
  let L := lens.length * H
  let w0 := Real.sqrt (1 + x.getD (M + L) 0 ^ 2)
  let wp := (List.range M).map fun (j : ℕ) => x.getD j 0 / w0 * (10 : ℝ) ^ (-mlMag lens.sum (P.eff.getD j 0))
  let weight := P.links.map fun l => wp.getD (max l.1 0).toNat 0 * l.2
  let offset := -x.getD M 0 / w0
  let u := if sel then xs else xc
  let o := if sel then xc else xs
  let post := fun (n : ℕ) => matVec bits weight n
  let ideal := fun (k n : ℕ) => if k = 0 then mlIdealFirst M L H u o x w0 n else mlIdealNext M L H k u o x w0 n
  let pol : ℝ := if weight.sum < 0 then -1 else 1
  let each := fun (g : ℕ → ℕ → ℝ) => (List.range lens.length).map fun (k : ℕ) => (List.range (lens.getD k 0)).map fun (t : ℕ) => g k (segStart lens k + t) * pol
  { weight := weight.map fun v => v * pol
    offset := offset * pol
    postcal := each fun _ n => post n
    ideal := each ideal
    err := each fun k n => post n - offset - ideal k n
    freqcal := fs }

/-- The frequency of each dataset: given, or searched for with `wcalsin` on that dataset alone. `matlab/src/wcalsin.m:150-157`. The inner call has `autotrans` off;
an oriented dataset is not transposed again. -/
noncomputable def mlEachFreq (solve : Lstsq) (rows : List (List (List ℝ))) (fs : List ℝ) (rate reltol : ℝ) (niter H : ℕ) (fsearch : Bool) (nominal : List ℝ) :
    Option (List ℝ) :=
  let est := (List.range rows.length).map fun (k : ℕ) =>
    if fs.getD k 0 = 0 ∨ fsearch then (mlWcalsin solve (rows.getD k []) (fs.getD k 0) rate reltol niter H true (some nominal)).map (·.freqcal) else some (fs.getD k 0)
  if none ∈ est then none else some (est.map fun v => v.getD 0)

open Classical in
/-- `wcalsin(bits, freq, rate, reltol, niter, order, fsearch, nomWeight)` with a cell array of datasets. `matlab/src/wcalsin.m:84-307`; `order` is taken as
already rounded, `autotrans` and `autopatch` are on, the warnings are left out. A `freq` of length one serves every dataset. The patching loop of lines 167-216 is the
one of `mlPatch`, the scaling of lines 222-224 that of `mlScaled`. -/
noncomputable def mlWcalsinCell (solve : Lstsq) (segs : List (List (List ℝ))) (freq : List ℝ) (rate reltol : ℝ) (niter H : ℕ) (fsearch : Bool)
    (given : Option (List ℝ)) : Option MlMultiCal :=
  if segs = [] then none
  else if (∃ f ∈ freq, f < 0) ∨ rate ≤ 0 ∨ 1 ≤ rate ∨ reltol ≤ 0 ∨ niter = 0 ∨ H = 0 then none
  else if ∃ s ∈ segs, s = [] ∨ s.headD [] = [] then none
  else
    let rows := segs.map orientSegment
    let width := ((rows.headD []).headD []).length
    if ∃ r ∈ rows, (r.headD []).length ≠ width then none
    else
      let nominal := mlNominal width given
      let fs := if freq.length = 1 then List.replicate rows.length (freq.headD 0) else freq
      if fs.length ≠ rows.length then none
      else
        match mlEachFreq solve rows fs rate reltol niter H fsearch nominal with
        | none => none
        | some fa =>
          let lens := rows.map List.length
          let bits := (List.range width).map fun (j : ℕ) => fun (n : ℕ) => (rows.flatten.getD n []).getD j 0
          match mlPatch lens.sum bits nominal with
          | none => none
          | some P =>
            let xc := mlBlocks lens fa H mlXc
            let xs := mlBlocks lens fa H mlXs
            let r := mlMultiFit solve lens.sum (mlScaled lens.sum P.eff) xc xs
            some (mlMultiResult lens bits P fa H xc xs r.1 r.2)

end Verif.Model
