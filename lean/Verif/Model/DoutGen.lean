import Mathlib.Analysis.SpecialFunctions.Log.Base
import Mathlib.Algebra.Order.Floor.Ring
import Mathlib.Data.Int.Log

/-! # Bit-level data generators of the MATLAB library

`matlab/data_generation/gen_pipeline2s_dout.m`, `gen_pipeline3s_dout.m`, `gen_pipeline8s_dout.m` and `gen_sar_dout.m`, for one sample. The scripts apply the same elementwise operations to a column
of samples. -/

namespace Verif.Model

/-- `floor(v*2^n) / 2^n`, the output of an ideal `n`-bit stage. `matlab/data_generation/gen_pipeline2s_dout.m:14, 17`. -/
noncomputable def stageOut (v : ℝ) (n : ℕ) : ℝ := (⌊v * 2 ^ n⌋ : ℝ) / 2 ^ n

/-- `offset1 = (1 - G1 * 1 / 2^N1) / 2`. `gen_pipeline2s_dout.m:12`, `gen_pipeline3s_dout.m:14-15`. -/
noncomputable def stageOffset (g : ℝ) (n : ℕ) : ℝ := (1 - g * 1 / 2 ^ n) / 2

/-- `binSaturate(x, N)`: floor, saturate to `[0, 2^N - 1]`, `dec2bin` to `N` digits with the most significant bit first. `gen_pipeline2s_dout.m:47-52`. -/
noncomputable def binSaturate (x : ℝ) (n : ℕ) : List ℝ :=
  let c : ℕ := (min (max ⌊x⌋ 0) (2 ^ n - 1)).toNat
  (List.range n).map fun (i : ℕ) => ((c / 2 ^ (n - 1 - i) % 2 : ℕ) : ℝ)

/-- `2.^((hi-1):-1:lo)` for a range of `n` exponents that ends in `lo`. `gen_pipeline2s_dout.m:28-29`, `gen_pipeline3s_dout.m:36-38`; in the scripts the start is
`lo + n - 1`, so the range has exactly `n` elements, also when `lo` is not an integer. -/
noncomputable def pow2Down (lo : ℝ) (n : ℕ) : List ℝ := (List.range n).map fun (i : ℕ) => (2 : ℝ) ^ (lo + n - 1 - i)

/-- `dout * weights'` for one row. -/
noncomputable def rowTimes (bits weights : List ℝ) : ℝ := (List.zipWith (· * ·) bits weights).sum

/-- `R1 = log2(2^N1/G1)`. `gen_pipeline2s_dout.m:25`. -/
noncomputable def stageRedundancy (n : ℕ) (g : ℝ) : ℝ := Real.logb 2 (2 ^ n / g)

/-- `dout` of the two-stage pipeline. `gen_pipeline2s_dout.m:12-22`. The parameters `N1 = 3, G1 = 8, N2 = 8` of the script are arguments here. -/
noncomputable def pipeline2Dout (n1 n2 : ℕ) (g1 sig : ℝ) : List ℝ :=
  let offset1 := stageOffset g1 n1
  let msb := stageOut sig n1
  let residue1 := sig - msb
  let lsb := stageOut (g1 * residue1 + offset1) n2
  binSaturate (msb * 2 ^ n1) n1 ++ binSaturate (lsb * 2 ^ n2) n2

/-- `[w1, w2]` before the division by the sum. `gen_pipeline2s_dout.m:25-31`. -/
noncomputable def pipeline2Raw (n1 n2 : ℕ) (g1 : ℝ) : List ℝ :=
  let r1 := stageRedundancy n1 g1
  pow2Down (n2 - r1) n1 ++ pow2Down 0 n2

/-- `weights / sum(weights)`. `gen_pipeline2s_dout.m:31-32`, `gen_pipeline3s_dout.m:40-41`. -/
noncomputable def unitSum (w : List ℝ) : List ℝ := w.map (· / w.sum)

/-- `dout` of the three-stage pipeline. `gen_pipeline3s_dout.m:14-29`; parameters as arguments. -/
noncomputable def pipeline3Dout (n1 n2 n3 : ℕ) (g1 g2 sig : ℝ) : List ℝ :=
  let offset1 := stageOffset g1 n1
  let offset2 := stageOffset g2 n2
  let msb := stageOut sig n1
  let residue1 := sig - msb
  let lsb := stageOut (g1 * residue1 + offset1) n2
  let residue2 := g1 * residue1 + offset1 - lsb
  let lsb2 := stageOut (g2 * residue2 + offset2) n3
  binSaturate (msb * 2 ^ n1) n1 ++ (binSaturate (lsb * 2 ^ n2) n2 ++ binSaturate (lsb2 * 2 ^ n3) n3)

/-- `[w1, w2, w3]` before the division by the sum. `gen_pipeline3s_dout.m:32-40`. -/
noncomputable def pipeline3Raw (n1 n2 n3 : ℕ) (g1 g2 : ℝ) : List ℝ :=
  let r1 := stageRedundancy n1 g1
  let r2 := stageRedundancy n2 g2
  pow2Down (n2 + n3 - r2 - r1) n1 ++ (pow2Down (n3 - r2) n2 ++ pow2Down 0 n3)

/-- `dout` of the pipeline with `m` equal stages and a last one, from the input `cur` of the first of them. `gen_pipeline8s_dout.m:19-64`; in the script `m = N_STAGES - 1 = 7`,
`N_BITS_PER_STAGE = 3`, `GAIN_PER_STAGE = 4` and `N_LAST_STAGE = 4`, here arguments. -/
noncomputable def pipelineNDout (n nl : ℕ) (g : ℝ) : ℕ → ℝ → List ℝ
  | 0, cur => binSaturate (stageOut cur nl * 2 ^ nl) nl
  | m + 1, cur => binSaturate (stageOut cur n * 2 ^ n) n ++ pipelineNDout n nl g m (g * (cur - stageOut cur n) + stageOffset g n)

/-- `effective_bits_remaining` of the stage with `m = N_STAGES - i` stages after it. `gen_pipeline8s_dout.m:45`. -/
noncomputable def bitsRemaining (n nl : ℕ) (g : ℝ) (m : ℕ) : ℝ := n * m - stageRedundancy n g * (m - 1) + (nl - n)

/-- `weights` before the division by the sum. `gen_pipeline8s_dout.m:45-46, 60, 65`. -/
noncomputable def pipelineNRaw (n nl : ℕ) (g : ℝ) : ℕ → List ℝ
  | 0 => pow2Down 0 nl
  | m + 1 => pow2Down (bitsRemaining n nl g (m + 1) - n) n ++ pipelineNRaw n nl g m

/-- SAR loop: one decision per weight, the residue is not updated after the last one. `gen_sar_dout.m:28-34`. -/
noncomputable def sarGenLoop : ℝ → List ℝ → List ℝ
  | _, [] => []
  | residue, v :: vs =>
    let d : ℝ := if 0 < residue then 1 else 0
    let delta := (2 * d - 1) * v
    d :: sarGenLoop (if vs.isEmpty then residue else residue - delta) vs

/-- `dout` of the SAR generator with `FS = 1`. `gen_sar_dout.m:12-34`. -/
noncomputable def sarGenDout (cdac : List ℝ) (sig : ℝ) : List ℝ := sarGenLoop sig (cdac.map fun c => c / cdac.sum * 1)

/-- `nominal_weight`: the last weight halved. `gen_sar_dout.m:36-37`. `none` for an empty list (`nominal_weight(end)` fails). -/
noncomputable def sarGenNominal (cdac : List ℝ) : Option (List ℝ) :=
  cdac.getLast?.map fun c => cdac.dropLast ++ [c / 2]

end Verif.Model
