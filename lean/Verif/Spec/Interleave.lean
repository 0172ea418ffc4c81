import Mathlib.Algebra.Order.Field.Basic

/-!
# Specifications for interleaved captures
-/

namespace Verif.Spec

/-- `ch` is the split of `x` into `M` channels: sample `n` of `x` is sample `n / M` of channel `n % M`, and nothing
else is in the channels. -/
def IsSplit {α : Type} (x : List α) (M : ℕ) (ch : List (List α)) : Prop :=
  ch.length = M ∧ (∀ row ∈ ch, row.length * M = x.length) ∧
    ∀ m k v, (∃ row, ch[m]? = some row ∧ row[k]? = some v) ↔ (m < M ∧ x[k * M + m]? = some v)

/-- Value of a zero-extended signal at any integer time. -/
def at0 {K : Type} [Zero K] (x : List K) (t : ℤ) : K := if t < 0 then 0 else x.getD t.toNat 0

end Verif.Spec
