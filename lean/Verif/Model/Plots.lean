import Verif.Np.Basic
import Verif.Np.Vec

/-!
# Model of the numbers that the plots draw and print

Axis limits, label positions, marker lists, windows and number texts of `spectrum/plot_spectrum.py`, `spectrum/plot_spectrum_virtuoso.py`,
`spectrum/plot_spectrum_polar.py`, `aout/plot_decomposition_time.py`, `aout/plot_decomposition_polar.py`, `aout/plot_dnl_inl.py`,
`aout/plot_rearranged_error_by_phase.py`. A number that may be NaN or infinite is an `Option`, with `none` for not finite. Drawing itself
(colours, fonts, `matplotlib` objects) is left out.
-/

namespace Verif.Model

variable {K : Type} [Field K] [LinearOrder K] [IsStrictOrderedRing K] [FloorRing K]

/-! ## Number texts -/

/-- A printed number: `digits / 10^decimals` followed by a suffix. -/
structure NumText where
  digits : ℤ
  decimals : ℕ
  suffix : String
deriving DecidableEq, Repr

/-- `f'{v:.df}' + suffix`: correctly rounded decimal, ties to even. -/
def fmtFixed (v : K) (d : ℕ) (suffix : String) : NumText := { digits := rint (v * 10 ^ d), decimals := d, suffix := suffix }

/-- `format_freq`. `spectrum/plot_spectrum.py:240-244`, `spectrum/plot_spectrum_virtuoso.py:156-160`. -/
def formatFreq (f : K) : NumText :=
  if 10 ^ 9 ≤ f then fmtFixed (f / 10 ^ 9) 1 "G"
  else if 10 ^ 6 ≤ f then fmtFixed (f / 10 ^ 6) 1 "M"
  else if 10 ^ 3 ≤ f then fmtFixed (f / 10 ^ 3) 1 "K"
  else fmtFixed f 1 ""

/-- `txt_fin`. `spectrum/plot_spectrum.py:249-253`. -/
def formatFin (f : K) : NumText :=
  if 10 ^ 9 ≤ f then fmtFixed (f / 10 ^ 9) 1 "G"
  else if 10 ^ 6 ≤ f then fmtFixed (f / 10 ^ 6) 1 "M"
  else if 10 ^ 3 ≤ f then fmtFixed (f / 10 ^ 3) 1 "K"
  else if 1 ≤ f then fmtFixed (f / 10 ^ 3) 1 ""
  else fmtFixed f 3 ""

/-- `_format_value_with_unit`. `aout/plot_rearranged_error_by_phase.py:13-27`. -/
def formatVolt (v : K) : NumText :=
  if |v| < 1 / 10 ^ 12 then { digits := 0, decimals := 2, suffix := "uV" }
  else if 1 ≤ |v| then fmtFixed v 2 "V"
  else if 1 / 10 ^ 3 ≤ |v| then fmtFixed (v * 10 ^ 3) 2 "mV"
  else if 1 / 10 ^ 6 ≤ |v| then fmtFixed (v * 10 ^ 6) 2 "uV"
  else if 1 / 10 ^ 9 ≤ |v| then fmtFixed (v * 10 ^ 9) 2 "nV"
  else fmtFixed (v * 10 ^ 12) 2 "pV"

/-! ## Spectrum plots -/

/-- `_noise_floor_axis_min(nf_line_level, fallback_level=...)`. `spectrum/plot_spectrum.py:14-29` with the default steps. -/
def axisMin (nf fallback : Option K) : K :=
  match nf, fallback with
  | some l, _ => max (20 * (⌊l / 20⌋ : K) - 20) (-200)
  | none, some l => max (20 * (⌊l / 20⌋ : K) - 20) (-200)
  | none, none => -100

/-- The lower axis limit of `plot_spectrum`; `median` is the in-band median. `spectrum/plot_spectrum.py:216-220`. -/
def lightAxisMin (median : K) (nf fallback : Option K) : K :=
  match nf with
  | some _ => min (max (median - 20) (-200)) (-40)
  | none => axisMin none fallback

/-- The lower axis limit and the foot of the bars of `plot_spectrum_virtuoso`. `spectrum/plot_spectrum_virtuoso.py:97-103`. -/
def darkAxisMin (nf fallback : Option K) (baseline : Option K) : K × K :=
  match baseline with
  | none => (axisMin nf fallback, axisMin nf fallback)
  | some b => (min (axisMin nf fallback) b, b)

/-- `_should_label_harmonic`. `spectrum/plot_spectrum.py:32-38`. -/
def shouldLabel (power nf : Option K) : Bool :=
  match power, nf with
  | none, _ => false
  | some _, none => true
  | some p, some l => decide (l - 20 ≤ p)

/-- The marked harmonics (order, bin) of `plot_spectrum` for `n` harmonic levels and the plotted spectrum `db` (of `len` bins). A bin outside
the spectrum raises `IndexError`; the bins are not negative. `spectrum/plot_spectrum.py:143-166, 192-201`. -/
def lightMarks (bins : List ℤ) (n : ℕ) (collided : List ℕ) (len : ℕ) (db : ℕ → Option K) (nf : Option K) (upTo : ℤ) : Py (List (ℕ × ℤ)) :=
  if bins.length = 0 ∨ n = 0 then .ok []
  else if (List.range n).any (fun i => decide (i + 2 ∉ collided) && decide (bins.length ≤ i ∨ len ≤ bins.getD i 0)) then .error .indexError
  else
    let harmonics := ((List.range n).filter fun i => decide (i + 2 ∉ collided)).map fun i => (i + 2, bins.getD i 0)
    if 0 < upTo then .ok (harmonics.filter fun h => decide ((h.1 : ℤ) ≤ upTo) && shouldLabel (db h.2.toNat) nf) else .ok []

/-- The marked harmonics of `plot_spectrum_virtuoso`. `spectrum/plot_spectrum_virtuoso.py:130-141`. -/
def darkMarks (bins : List ℤ) (n : ℕ) (collided : List ℕ) (len : ℕ) (db : ℕ → Option K) (nf : Option K) (upTo : ℤ) : Py (List (ℕ × ℤ)) :=
  if 0 < upTo ∧ bins.length ≠ 0 ∧ n ≠ 0 then
    let idx := (List.range n).filter fun (i : ℕ) => ! (decide (upTo < (i : ℤ) + 2) || decide (i + 2 ∈ collided))
    if idx.any (fun i => decide (bins.length ≤ i ∨ len ≤ bins.getD i 0)) then .error .indexError
    else .ok ((idx.filter fun i => shouldLabel (db (bins.getD i 0).toNat) nf).map fun i => (i + 2, bins.getD i 0))
  else .ok []

/-- Where a label is anchored. -/
inductive VAlign where
  | bottom
  | top
  | center
deriving DecidableEq, Repr

/-- Horizontal anchor. -/
inductive HAlign where
  | left
  | center
  | right
deriving DecidableEq, Repr

/-- `_refresh_max_spur_annotation`: `none` when marker and label are hidden, else the height and anchors of the label. `y0`, `y1` are the
axis limits in any order, `xAxes` the horizontal position of the spur in axes coordinates. `spectrum/plot_spectrum.py:41-95`. -/
def refreshSpur (y0 y1 : Option K) (spur xAxes : Option K) : Option (K × VAlign × HAlign) :=
  match spur, y0, y1 with
  | some s, some a, some b =>
    let lo := min a b
    let hi := max a b
    if hi ≤ lo then none
    else
      let margin := min (max (4 / 100 * (hi - lo)) 1) 6
      if s ≤ lo + margin ∨ hi < s then none
      else
        match xAxes with
        | none => none
        | some x =>
          if x < 0 ∨ 1 < x then none
          else
            let top := hi - margin
            let bottom := lo + margin
            let l1 : K × VAlign := if top < s + 10 then (s - 8, .top) else (s + 10, .bottom)
            let l2 : K × VAlign := if l1.1 < bottom then (min (max s bottom) top, .center) else l1
            some (l2.1, l2.2, if 95 / 100 < x then .right else if x < 5 / 100 then .left else .center)
  | _, _, _ => none

/-! ## Polar plots -/

/-- `np.arange(0, r + 1, 10)`. -/
def tickValues (r : K) : List K := (List.range ⌈(r + 1) / 10⌉.toNat).map fun (i : ℕ) => (10 * i : K)

/-- Radial axis of `plot_spectrum_polar` (reference level, largest radius, tick values, tick labels) for the noise floor `minR`.
`spectrum/plot_spectrum_polar.py:48-55, 65-77`. -/
def polarAxis (minR : K) (fixed : Option K) : K × K × List K × List ℤ :=
  match fixed with
  | some r => (-r, r, tickValues r, (tickValues r).map fun v => truncInt ((rint (-r / 10) : K) * 10 + v))
  | none => (minR, -minR, tickValues (-minR), (tickValues (-minR)).map fun v => truncInt ((rint (minR / 10) : K) * 10 + v))

/-- `radius` of a bin with level `db`. `spectrum/plot_spectrum_polar.py:48-55`. -/
def polarRadius (minR : K) (fixed : Option K) (db : K) : K := max db (polarAxis minR fixed).1 - (polarAxis minR fixed).1

/-- What `plot_decomposition_polar` draws. -/
structure DecompPolar (K : Type) where
  radii : List K
  noiseRadius : K
  maxRadius : K
  ticks : List K
  labels : List ℤ

/-- `plot_decomposition_polar`: radii of the harmonics, of the noise circle, largest radius and ticks. `aout/plot_decomposition_polar.py:66-69,
90-100, 139-146`. A missing level raises `IndexError` in the drawing loop, an empty list `ValueError` in `np.max`. `harmonic` is not negative
(a negative number is outside the model). -/
def decompPolar (db : List K) (noise : K) (harmonic : ℕ) : Py (DecompPolar K) :=
  match db.take harmonic with
  | [] => .error .valueError
  | a :: l =>
    if db.length < harmonic then .error .indexError
    else
      let maxR := (⌈(l.foldl max a) / 10⌉ : K) * 10
      let minR := (⌊(min (l.foldl min a) noise - 10) / 10⌋ : K) * 10
      .ok { radii := (a :: l).map fun m => m - minR, noiseRadius := noise - minR, maxRadius := maxR - minR, ticks := tickValues (maxR - minR),
            labels := (tickValues (maxR - minR)).map fun v => truncInt (minR + v) }

/-! ## Time-domain window -/

/-- Number of displayed samples. `aout/plot_decomposition_time.py:101-106`. -/
def displayCount (n : ℕ) (f cycles : K) : ℤ :=
  if 0 < f then min (truncInt (cycles * (truncInt (1 / f) : K))) n else min 50 n

/-- The displayed samples `start .. stop-1` of `plot_decomposition_time` for a record of `n` samples whose largest error is at `e`.
`aout/plot_decomposition_time.py:108-122, 134`. An empty window raises `ValueError` (`np.min` of nothing, or columns of different length). -/
def timeWindow (n e : ℕ) (f cycles : K) : Py (ℤ × ℤ) :=
  let d := displayCount n f cycles
  let start := max 0 ((e : ℤ) - d / 3)
  let stop := min (n : ℤ) (start + d)
  let start := if stop = n ∧ stop - start < d then max 0 (stop - d) else start
  if stop ≤ start then .error .valueError else .ok (start, stop)

/-- Axis limits with 10 % margin around data between `lo` and `hi`. `aout/plot_decomposition_time.py:133-137, 159-164`. -/
def marginLimits (lo hi : K) : K × K :=
  let m := if hi - lo ≠ 0 then (hi - lo) * (1 / 10) else 1 / 10
  (lo - m, hi + m)

/-! ## DNL/INL and AM/PM curves -/

/-- Vertical axis limits of a DNL or INL curve with data between `lo` and `hi`. `aout/plot_dnl_inl.py:155-161`. -/
def dnlLimits (lo hi : K) : K × K := if max |lo| |hi| ≤ 1 then (-1, 1) else (lo * (12 / 10), hi * (12 / 10))

end Verif.Model
