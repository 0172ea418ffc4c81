import Verif.Model.Drift
import Mathlib.Analysis.SpecialFunctions.Trigonometric.Complex
import Mathlib.Analysis.SpecialFunctions.Complex.Circle
import Mathlib.Analysis.Complex.Trigonometric

/-!
# Lemmas about the two-pass filter of `apply_drift`
-/

namespace Verif

open Model Finset

section Linear

variable {K : Type} [Field K]

theorem state_congr (q : Biquad K) {x y : ℕ → K} (z : K × K) : ∀ n, (∀ k < n, x k = y k) → q.state x z n = q.state y z n
  | 0, _ => rfl
  | n + 1, h => by
    simp only [Biquad.state, state_congr q z n fun k hk => h k (by omega), h n (by omega)]

theorem lfilter_congr (q : Biquad K) {x y : ℕ → K} (z : K × K) (n : ℕ) (h : ∀ k ≤ n, x k = y k) : q.lfilter x z n = q.lfilter y z n := by
  unfold Biquad.lfilter
  rw [state_congr q z n fun k hk => h k hk.le, h n le_rfl]

theorem state_lin (q : Biquad K) (c : K) (x y : ℕ → K) (z w : K × K) : ∀ n,
    q.state (fun k => c * x k + y k) (c * z.1 + w.1, c * z.2 + w.2) n =
      (c * (q.state x z n).1 + (q.state y w n).1, c * (q.state x z n).2 + (q.state y w n).2)
  | 0 => rfl
  | n + 1 => by
    simp only [Biquad.state, state_lin q c x y z w n, Prod.mk.injEq]
    constructor <;> ring

theorem lfilter_lin (q : Biquad K) (c : K) (x y : ℕ → K) (z w : K × K) (n : ℕ) :
    q.lfilter (fun k => c * x k + y k) (c * z.1 + w.1, c * z.2 + w.2) n = c * q.lfilter x z n + q.lfilter y w n := by
  unfold Biquad.lfilter
  rw [state_lin]
  ring

theorem oddExt_lin (c : K) (x y : ℕ → K) (N n : ℕ) : oddExt (fun k => c * x k + y k) N n = c * oddExt x N n + oddExt y N n := by
  unfold oddExt
  split_ifs <;> ring

theorem twoPass_lin (q : Biquad K) (c : K) (x y : ℕ → K) (N i : ℕ) :
    q.twoPass (fun k => c * x k + y k) N i = c * q.twoPass x N i + q.twoPass y N i := by
  unfold Biquad.twoPass
  simp only
  have he : (oddExt (fun k => c * x k + y k) N) = fun n => c * oddExt x N n + oddExt y N n := by
    funext n; exact oddExt_lin c x y N n
  rw [he]
  set ex := oddExt x N
  set ey := oddExt y N
  have hz : ∀ u v : K, (q.zi.1 * (c * u + v), q.zi.2 * (c * u + v)) =
      (c * (q.zi.1 * u, q.zi.2 * u).1 + (q.zi.1 * v, q.zi.2 * v).1, c * (q.zi.1 * u, q.zi.2 * u).2 + (q.zi.1 * v, q.zi.2 * v).2) := by
    intro u v
    simp only [Prod.mk.injEq]
    constructor <;> ring
  have hf : ∀ n, q.lfilter (fun n => c * ex n + ey n) (q.zi.1 * (c * ex 0 + ey 0), q.zi.2 * (c * ex 0 + ey 0)) n =
      c * q.lfilter ex (q.zi.1 * ex 0, q.zi.2 * ex 0) n + q.lfilter ey (q.zi.1 * ey 0, q.zi.2 * ey 0) n := by
    intro n
    rw [hz, lfilter_lin]
  simp only [hf]
  rw [hz, lfilter_lin]

theorem twoPass_zero (q : Biquad K) (N i : ℕ) : q.twoPass (fun _ => 0) N i = 0 := by
  have h := twoPass_lin q (-1) (fun _ => 0) (fun _ => 0) N i
  simp only [mul_zero, add_zero] at h
  rw [h]; ring

theorem twoPass_sum (q : Biquad K) (c : ℕ → K) (f : ℕ → ℕ → K) (N i : ℕ) : ∀ M,
    q.twoPass (fun k => ∑ j ∈ range M, c j * f j k) N i = ∑ j ∈ range M, c j * q.twoPass (f j) N i
  | 0 => by simp only [range_zero, sum_empty]; exact twoPass_zero q N i
  | M + 1 => by
    rw [sum_range_succ, ← twoPass_sum q c f N i M, add_comm (q.twoPass _ N i), ← twoPass_lin]
    congr 1
    funext k
    rw [sum_range_succ, add_comm]

theorem oddExt_congr {x y : ℕ → K} {N : ℕ} (hN : padLen < N) (h : ∀ k < N, x k = y k) (n : ℕ) : oddExt x N n = oddExt y N n := by
  unfold padLen at hN
  unfold oddExt padLen
  split_ifs with h1 h2
  · rw [h 0 (by omega), h (9 - n) (by omega)]
  · rw [h (n - 9) (by omega)]
  · rw [h (N - 1) (by omega), h (N - 2 - (n - (9 + N))) (by omega)]

theorem twoPass_congr (q : Biquad K) {x y : ℕ → K} {N : ℕ} (hN : padLen < N) (h : ∀ k < N, x k = y k) (i : ℕ) :
    q.twoPass x N i = q.twoPass y N i := by
  have : oddExt x N = oddExt y N := funext (oddExt_congr hN h)
  unfold Biquad.twoPass
  rw [this]

/-- The matrix of the filter for records of `N` samples. -/
def filterMatrix (q : Biquad K) (N i j : ℕ) : K := q.twoPass (fun k => if k = j then 1 else 0) N i

theorem twoPass_matrix (q : Biquad K) (x : ℕ → K) {N : ℕ} (hN : padLen < N) (i : ℕ) :
    q.twoPass x N i = ∑ j ∈ range N, filterMatrix q N i j * x j := by
  have hx : ∀ k < N, x k = ∑ j ∈ range N, x j * (if k = j then 1 else 0) := by
    intro k hk
    simp only [mul_ite, mul_one, mul_zero]
    rw [sum_ite_eq, if_pos (mem_range.mpr hk)]
  rw [twoPass_congr q hN hx, twoPass_sum q x (fun j k => if k = j then 1 else 0)]
  exact sum_congr rfl fun j _ => mul_comm _ _

/-- A constant leaves the filter unchanged when the gain at zero frequency is one. -/
theorem lfilter_const (q : Biquad K) (hd : 1 + q.a1 + q.a2 ≠ 0) (hg : q.b0 + q.b1 + q.b2 = 1 + q.a1 + q.a2) (c : K) (n : ℕ) :
    q.lfilter (fun _ => c) (q.zi.1 * c, q.zi.2 * c) n = c := by
  have z0 : q.zi.1 = 1 - q.b0 := by
    unfold Biquad.zi
    simp only
    rw [div_eq_iff hd]
    linear_combination hg
  have z1 : q.zi.2 = (1 + q.a1) * (1 - q.b0) - (q.b1 - q.a1 * q.b0) := by
    have : q.zi.2 = (1 + q.a1) * q.zi.1 - (q.b1 - q.a1 * q.b0) := rfl
    rw [this, z0]
  have hs : ∀ n, q.state (fun _ => c) (q.zi.1 * c, q.zi.2 * c) n = (q.zi.1 * c, q.zi.2 * c) := by
    intro n
    induction n with
    | zero => rfl
    | succ n ih =>
      simp only [Biquad.state, ih, Prod.mk.injEq]
      rw [z0, z1]
      constructor
      · ring
      · linear_combination c * hg
  unfold Biquad.lfilter
  rw [hs, z0]
  ring

theorem twoPass_const (q : Biquad K) (hd : 1 + q.a1 + q.a2 ≠ 0) (hg : q.b0 + q.b1 + q.b2 = 1 + q.a1 + q.a2) (c : K) (N i : ℕ) :
    q.twoPass (fun _ => c) N i = c := by
  have he : oddExt (fun _ => c) N = fun _ => c := by
    funext n
    unfold oddExt
    split_ifs <;> ring
  unfold Biquad.twoPass
  simp only [he, lfilter_const q hd hg]

end Linear

/-! ## Decay -/

theorem pole_step (q : Biquad ℂ) {p : ℂ} (hp : p ^ 2 + q.a1 * p + q.a2 = 0) (x : ℕ → ℂ) (z : ℂ × ℂ) (n : ℕ) :
    (q.state x z (n + 1)).2 + p * (q.state x z (n + 1)).1 =
      p * ((q.state x z n).2 + p * (q.state x z n).1) + (q.b2 - q.a2 * q.b0 + p * (q.b1 - q.a1 * q.b0)) * x n := by
  simp only [Biquad.state]
  linear_combination (-(q.state x z n).1) * hp

theorem decay_aux {ρ σ D F : ℝ} (hσ : 0 < σ) (hσ1 : σ < 1) (hρ : 0 ≤ ρ) (hD : 0 ≤ D) (hF : F ≤ D * (σ - ρ)) (L : ℕ) (w : ℕ → ℝ) (h0 : w 0 ≤ D)
    (hw : ∀ n < L, w (n + 1) ≤ ρ * w n + F * (σ ^ n + σ ^ (L - n))) : ∀ n ≤ L, w n ≤ D * (σ ^ n + σ ^ (L - n))
  | 0, _ => by
    have : 0 ≤ D * σ ^ (L - 0) := by positivity
    rw [pow_zero]; nlinarith
  | n + 1, hn => by
    have ih := decay_aux hσ hσ1 hρ hD hF L w h0 hw n (by omega)
    have h1 := hw n (by omega)
    have hs : L - n = (L - (n + 1)) + 1 := by omega
    set a := σ ^ n
    set b := σ ^ (L - (n + 1)) with hb
    have ha : 0 < a := by positivity
    have hbp : 0 < b := by positivity
    rw [hs, pow_succ, ← hb] at ih h1
    rw [pow_succ]
    have hB : 0 ≤ a + b * σ := by positivity
    have h2 : ρ * w n ≤ ρ * (D * (a + b * σ)) := mul_le_mul_of_nonneg_left ih hρ
    have h3 : F * (a + b * σ) ≤ D * (σ - ρ) * (a + b * σ) := mul_le_mul_of_nonneg_right hF hB
    have h4 : D * (b * σ * σ) ≤ D * b := by
      refine mul_le_mul_of_nonneg_left ?_ hD
      have : b * (σ * σ) ≤ b * 1 := mul_le_mul_of_nonneg_left (by nlinarith) hbp.le
      nlinarith
    nlinarith

/-- A filter whose two poles lie apart and inside the circle of radius `σ < 1` answers an input that decays away from both ends in the same way. -/
theorem resp_bound (q : Biquad ℂ) {p p' : ℂ} (hp : p ^ 2 + q.a1 * p + q.a2 = 0) (hp' : p' ^ 2 + q.a1 * p' + q.a2 = 0) (hne : p ≠ p') {σ : ℝ}
    (hσ1 : σ < 1) (h1 : ‖p‖ < σ) (h2 : ‖p'‖ < σ) :
    ∃ M : ℝ, 0 ≤ M ∧ ∀ (C E : ℝ) (L : ℕ) (x : ℕ → ℂ) (z : ℂ × ℂ), 0 ≤ C → 0 ≤ E → (∀ n < L, ‖x n‖ ≤ C * (σ ^ n + σ ^ (L - n))) →
      ‖z.1‖ ≤ E → ‖z.2‖ ≤ E → ∀ n < L, ‖q.lfilter x z n‖ ≤ M * (C + E) * (σ ^ n + σ ^ (L - n)) := by
  have hσ : 0 < σ := lt_of_le_of_lt (norm_nonneg p) h1
  -- one pole
  have key : ∀ r : ℂ, r ^ 2 + q.a1 * r + q.a2 = 0 → ‖r‖ < σ → ∃ D : ℝ, 0 ≤ D ∧ ∀ (C E : ℝ) (L : ℕ) (x : ℕ → ℂ) (z : ℂ × ℂ), 0 ≤ C → 0 ≤ E →
      (∀ n < L, ‖x n‖ ≤ C * (σ ^ n + σ ^ (L - n))) → ‖z.1‖ ≤ E → ‖z.2‖ ≤ E → ∀ n < L,
        ‖(q.state x z n).2 + r * (q.state x z n).1‖ ≤ D * (C + E) * (σ ^ n + σ ^ (L - n)) := by
    intro r hr hrσ
    set G := ‖q.b2 - q.a2 * q.b0 + r * (q.b1 - q.a1 * q.b0)‖
    have hG : 0 ≤ G := norm_nonneg _
    have hd : 0 < σ - ‖r‖ := by linarith
    refine ⟨2 + G / (σ - ‖r‖), by positivity, ?_⟩
    intro C E L x z hC hE hx hz1 hz2 n hn
    refine decay_aux (F := G * C) hσ hσ1 (norm_nonneg r) (by positivity) ?_ L (fun n => ‖(q.state x z n).2 + r * (q.state x z n).1‖) ?_ ?_ n hn.le
    · have : G / (σ - ‖r‖) * (σ - ‖r‖) = G := div_mul_cancel₀ _ hd.ne'
      have e : (2 + G / (σ - ‖r‖)) * (C + E) * (σ - ‖r‖) = 2 * (C + E) * (σ - ‖r‖) + (G / (σ - ‖r‖) * (σ - ‖r‖)) * (C + E) := by ring
      rw [e, this]
      have : 0 ≤ 2 * (C + E) * (σ - ‖r‖) := by positivity
      nlinarith [mul_nonneg hG hE]
    · have h0 : ‖z.2 + r * z.1‖ ≤ ‖z.2‖ + ‖r‖ * ‖z.1‖ := by
        rw [← norm_mul]; exact norm_add_le _ _
      have h3 : ‖r‖ * ‖z.1‖ ≤ 1 * E := mul_le_mul (by linarith) hz1 (norm_nonneg _) (by norm_num)
      have h4 : 0 ≤ G / (σ - ‖r‖) * (C + E) := by positivity
      change ‖z.2 + r * z.1‖ ≤ _
      nlinarith
    · intro k hk
      rw [pole_step q hr]
      refine (norm_add_le _ _).trans ?_
      rw [norm_mul, norm_mul]
      have := mul_le_mul_of_nonneg_left (hx k hk) hG
      nlinarith
  obtain ⟨D, hD, h⟩ := key p hp h1
  obtain ⟨D', hD', h'⟩ := key p' hp' h2
  have hδ : 0 < ‖p - p'‖ := norm_pos_iff.mpr (sub_ne_zero.mpr hne)
  refine ⟨‖q.b0‖ + (D + D') / ‖p - p'‖, by positivity, ?_⟩
  intro C E L x z hC hE hx hz1 hz2 n hn
  have e1 := h C E L x z hC hE hx hz1 hz2 n hn
  have e2 := h' C E L x z hC hE hx hz1 hz2 n hn
  set s := q.state x z n with hs
  set B := σ ^ n + σ ^ (L - n)
  have hB : 0 ≤ B := by positivity
  have hs1 : ‖s.1‖ ≤ (D + D') / ‖p - p'‖ * ((C + E) * B) := by
    have : (p - p') * s.1 = (s.2 + p * s.1) - (s.2 + p' * s.1) := by ring
    have hn : ‖p - p'‖ * ‖s.1‖ ≤ (D + D') * ((C + E) * B) := by
      rw [← norm_mul, this]
      refine (norm_sub_le _ _).trans ?_
      linarith
    rw [div_mul_eq_mul_div, le_div_iff₀ hδ]
    linarith
  have hx0 : ‖q.b0 * x n‖ ≤ ‖q.b0‖ * ((C + E) * B) := by
    rw [norm_mul]
    refine mul_le_mul_of_nonneg_left ((hx n hn).trans ?_) (norm_nonneg _)
    exact mul_le_mul_of_nonneg_right (by linarith) hB
  unfold Biquad.lfilter
  refine (norm_add_le _ _).trans ?_
  rw [← hs]
  linarith

/-! ## Steady state -/

theorem state_steady (q : Biquad ℂ) {z H : ℂ} (hH : (z ^ 2 + q.a1 * z + q.a2) * H = q.b0 * z ^ 2 + q.b1 * z + q.b2) (u : ℕ → ℂ)
    (hu : ∀ n, u (n + 1) = z * u n) : ∀ n, q.state u ((H - q.b0) * u 0, ((H - q.b0) * z + q.a1 * H - q.b1) * u 0) n =
      ((H - q.b0) * u n, ((H - q.b0) * z + q.a1 * H - q.b1) * u n)
  | 0 => rfl
  | n + 1 => by
    simp only [Biquad.state, state_steady q hH u hu n, hu n, Prod.mk.injEq]
    constructor
    · ring
    · linear_combination (-(u n)) * hH

/-- Output of a filter on a signal close to a rotating exponential: the steady answer plus what the filter makes of the difference. -/
theorem lfilter_split (q : Biquad ℂ) {z H : ℂ} (hH : (z ^ 2 + q.a1 * z + q.a2) * H = q.b0 * z ^ 2 + q.b1 * z + q.b2) (u x : ℕ → ℂ)
    (hu : ∀ n, u (n + 1) = z * u n) (s : ℂ × ℂ) (n : ℕ) :
    q.lfilter x s n = H * u n +
      q.lfilter (fun k => x k - u k) (s.1 - (H - q.b0) * u 0, s.2 - ((H - q.b0) * z + q.a1 * H - q.b1) * u 0) n := by
  have h := lfilter_lin q 1 u (fun k => x k - u k) ((H - q.b0) * u 0, ((H - q.b0) * z + q.a1 * H - q.b1) * u 0)
    (s.1 - (H - q.b0) * u 0, s.2 - ((H - q.b0) * z + q.a1 * H - q.b1) * u 0) n
  simp only [one_mul, add_sub_cancel] at h
  rw [show q.lfilter x s n = q.lfilter x (s.1, s.2) n from rfl, h]
  congr 1
  unfold Biquad.lfilter
  rw [state_steady q hH u hu]
  ring

/-- The same filter on complex signals. -/
def Biquad.toComplex (q : Biquad ℝ) : Biquad ℂ := ⟨q.b0, q.b1, q.b2, q.a1, q.a2⟩

theorem state_im (q : Biquad ℝ) (x : ℕ → ℂ) (z : ℂ × ℂ) : ∀ n,
    ((((Biquad.toComplex q)).state x z n).1.im, ((Biquad.toComplex q).state x z n).2.im) = q.state (fun k => (x k).im) (z.1.im, z.2.im) n
  | 0 => rfl
  | n + 1 => by
    have ih := state_im q x z n
    simp only [Biquad.state, ← ih, Prod.mk.injEq]
    simp [Biquad.toComplex]

theorem lfilter_im (q : Biquad ℝ) (x : ℕ → ℂ) (z : ℂ × ℂ) (n : ℕ) :
    ((Biquad.toComplex q).lfilter x z n).im = q.lfilter (fun k => (x k).im) (z.1.im, z.2.im) n := by
  unfold Biquad.lfilter
  rw [← state_im]
  simp [Biquad.toComplex]

theorem zi_toComplex (q : Biquad ℝ) : (Biquad.toComplex q).zi = ((q.zi.1 : ℂ), (q.zi.2 : ℂ)) := by
  simp [Biquad.zi, Biquad.toComplex]

theorem oddExt_im (x : ℕ → ℂ) (N n : ℕ) : (oddExt x N n).im = oddExt (fun k => (x k).im) N n := by
  unfold oddExt
  split_ifs <;> simp

theorem twoPass_im (q : Biquad ℝ) (x : ℕ → ℂ) (N i : ℕ) :
    ((Biquad.toComplex q).twoPass x N i).im = q.twoPass (fun k => (x k).im) N i := by
  unfold Biquad.twoPass
  simp only
  rw [lfilter_im]
  have he : oddExt (fun k => (x k).im) N = fun n => (oddExt x N n).im := funext fun n => (oddExt_im x N n).symm
  rw [he]
  simp only [lfilter_im, zi_toComplex, Complex.re_ofReal_mul, Complex.im_ofReal_mul]

end Verif
