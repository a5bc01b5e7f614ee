import Verif.Model.Encoding
import Verif.Spec.Values
import Verif.Lemmas.PyM
import Mathlib.Tactic.Linarith

/-! # Integers that Python does not print, and the exceptions of `invalidate_value` -/
namespace EthAbi
open Spec

variable [Ext]

theorem strOk_iff (i : Int) : strOk i = true ↔ PrintableInt i := by
  unfold strOk PrintableInt
  cases Ext.maxStrDigits with
  | none => simp
  | some k => simp

mutual
theorem reprOk_iff : ∀ v : PyVal, reprOk v = true ↔ Printable v
  | .int i => by simp only [reprOk, Printable]; exact strOk_iff i
  | .list xs => by simp only [reprOk, Printable]; exact reprOkAll_iff xs
  | .tuple xs => by simp only [reprOk, Printable]; exact reprOkAll_iff xs
  | .seq xs => by simp only [reprOk, Printable]; exact reprOkAll_iff xs
  | .fraction n d => by simp only [reprOk, Printable, Bool.and_eq_true, strOk_iff]
  | .complex => by simp [reprOk, Printable]
  | .none => by simp [reprOk, Printable]
  | .bool _ => by simp [reprOk, Printable]
  | .float => by simp [reprOk, Printable]
  | .dec _ => by simp [reprOk, Printable]
  | .str _ => by simp [reprOk, Printable]
  | .bytes _ => by simp [reprOk, Printable]
  | .bytearray _ => by simp [reprOk, Printable]
  | .other => by simp [reprOk, Printable]
theorem reprOkAll_iff : ∀ vs : List PyVal, reprOkAll vs = true ↔ PrintableAll vs
  | [] => by simp [reprOkAll, PrintableAll]
  | v :: vs => by simp only [reprOkAll, PrintableAll, Bool.and_eq_true, reprOk_iff v, reprOkAll_iff vs]
end

theorem printableAll_iff {vs : List PyVal} : PrintableAll vs ↔ ∀ v ∈ vs, Printable v := by
  induction vs with
  | nil => simp [PrintableAll]
  | cons v vs ih => simp [PrintableAll, ih]

theorem printable_list {v : PyVal} {vs : List PyVal} (h : asListLike? v = some vs) :
    Printable v ↔ PrintableAll vs := by
  cases v <;> simp only [asListLike?] at h <;> cases h <;> rfl

/-- A number of at most 640 digits is printed. -/
theorem printableInt_of_lt {i : Int} (h : i.natAbs < 10 ^ 640) : PrintableInt i := by
  intro k hk
  exact lt_of_lt_of_le h (Nat.pow_le_pow_right (by decide) (Ext.maxStrDigits_ge k hk))

theorem printableInt_le {i j : Int} (h : i.natAbs ≤ j.natAbs) (hj : PrintableInt j) : PrintableInt i :=
  fun k hk => lt_of_le_of_lt h (hj k hk)

/-- The exception of `invalidate_value(value, exc)`. -/
def shown (v : PyVal) (exc : Exc) : Exc := if reprOk v then exc else .valueError

theorem invalidate_eq (v : PyVal) (exc : Exc) : invalidateValue v exc = .error (shown v exc) := by
  unfold invalidateValue shown
  split <;> rfl

theorem shown_of {v : PyVal} (h : Printable v) (exc : Exc) : shown v exc = exc := by
  rw [shown, if_pos ((reprOk_iff v).2 h)]

theorem shown_not {v : PyVal} (h : ¬ Printable v) (exc : Exc) : shown v exc = .valueError := by
  rw [shown, if_neg (by rwa [reprOk_iff])]

theorem shown_quoting (v : PyVal) (exc : Exc) : shown v exc = quoting v exc := by
  unfold quoting
  split
  · next h => exact shown_of h exc
  · next h => exact shown_not h exc

theorem quoting_of {v : PyVal} (h : Printable v) (exc : Exc) : quoting v exc = exc := by
  rw [← shown_quoting, shown_of h]

/-- How a value is refused: with an `EncodingError`, or with a `ValueError` if it cannot be printed. -/
def Refusal (v : PyVal) (er : Exc) : Prop :=
  er.isEncodingError = true ∨ (er = .valueError ∧ ¬ Printable v)

theorem shown_refusal (v : PyVal) {exc : Exc} (h : exc.isEncodingError = true) :
    Refusal v (shown v exc) := by
  by_cases hp : Printable v
  · rw [shown_of hp]; exact .inl h
  · rw [shown_not hp]; exact .inr ⟨rfl, hp⟩

theorem Refusal.printable {v : PyVal} {er : Exc} (h : Refusal v er) (hp : Printable v) :
    er.isEncodingError = true := by
  rcases h with h | ⟨_, h⟩
  · exact h
  · exact absurd hp h

theorem Refusal.item {v u : PyVal} {vs : List PyVal} {er : Exc} (hv : asListLike? v = some vs) (hu : u ∈ vs)
    (h : Refusal u er) : Refusal v er := by
  rcases h with h | ⟨h1, h2⟩
  · exact .inl h
  · exact .inr ⟨h1, fun hp => h2 (printableAll_iff.1 ((printable_list hv).1 hp) u hu)⟩

theorem Refusal.ne_attribute {v : PyVal} {er : Exc} (h : Refusal v er) : er ≠ .attributeError := by
  rintro rfl
  rcases h with h | ⟨h, _⟩ <;> cases h

theorem Refusal.ne_unicode {v : PyVal} {er : Exc} (h : Refusal v er) : er ≠ .unicodeEncodeError := by
  rintro rfl
  rcases h with h | ⟨h, _⟩ <;> cases h

theorem Refusal.of {v : PyVal} {er : Exc} (h : Refusal v er) (t : Ty) : Refused t v er := by
  rcases h with h | ⟨h1, h2⟩
  · exact .inl h
  · exact .inr (.inl ⟨h1, fun h => h2 h.1⟩)

end EthAbi
namespace EthAbi.Spec
variable [Ext]

theorem Refused.printable {t : Ty} {v : PyVal} {er : Exc} (h : Refused t v er) (hp : Printable v)
    (hb : BoundsPrintable t) (ho : ¬ HoldsOdd t v) : er.isEncodingError = true := by
  rcases h with h | ⟨_, h⟩ | ⟨_, h⟩
  · exact h
  · exact absurd ⟨hp, hb⟩ h
  · exact absurd h ho

theorem Refused.refusal {t : Ty} {v : PyVal} {er : Exc} (h : Refused t v er) (hb : BoundsPrintable t) :
    Refusal v er ∨ er = .typeError ∧ HoldsOdd t v := by
  rcases h with h | ⟨h1, h2⟩ | h
  · exact .inl (.inl h)
  · exact .inl (.inr ⟨h1, fun hp => h2 ⟨hp, hb⟩⟩)
  · exact .inr h

theorem Refused.item {t w : Ty} {v u : PyVal} {vs : List PyVal} {er : Exc} (hv : asListLike? v = some vs)
    (hu : u ∈ vs) (h : Refused t u er) (hb : BoundsPrintable w → BoundsPrintable t) (ho : HoldsOdd t u → HoldsOdd w v) :
    Refused w v er := by
  rcases h with h | ⟨h1, h2⟩ | ⟨h1, h2⟩
  · exact .inl h
  · exact .inr (.inl ⟨h1, fun hp => h2 ⟨printableAll_iff.1 ((printable_list hv).1 hp.1) u hu, hb hp.2⟩⟩)
  · exact .inr (.inr ⟨h1, ho h2⟩)

theorem holdsOddAny_of {ts : List Ty} {vs : List PyVal} {t : Ty} {u : PyVal} (h : (t, u) ∈ ts.zip vs)
    (ho : HoldsOdd t u) : HoldsOddAny ts vs := by
  induction ts generalizing vs with
  | nil => cases h
  | cons t' ts ih =>
    cases vs with
    | nil => cases h
    | cons u' us =>
      simp only [List.zip_cons_cons, List.mem_cons, Prod.mk.injEq] at h
      rcases h with ⟨rfl, rfl⟩ | h
      · exact .inl ho
      · exact .inr (ih h)

theorem boundsPrintableAll_iff {ts : List Ty} : BoundsPrintableAll ts ↔ ∀ t ∈ ts, BoundsPrintable t := by
  induction ts with
  | nil => simp [BoundsPrintableAll]
  | cons t ts ih => simp [BoundsPrintableAll, ih]

theorem Refused.ne_attribute {t : Ty} {v : PyVal} {er : Exc} (h : Refused t v er) : er ≠ .attributeError := by
  rintro rfl
  rcases h with h | ⟨h, _⟩ | ⟨h, _⟩ <;> cases h

theorem Refused.ne_unicode {t : Ty} {v : PyVal} {er : Exc} (h : Refused t v er) :
    er ≠ .unicodeEncodeError := by
  rintro rfl
  rcases h with h | ⟨h, _⟩ | ⟨h, _⟩ <;> cases h

end EthAbi.Spec
namespace EthAbi
open Spec
variable [Ext]

/-- How a number that is too big for a word is refused. -/
def TooBig (er : Exc) : Prop := er = .valueOutOfBounds ∨ er = .valueError

theorem shown_tooBig (v : PyVal) : TooBig (shown v .valueOutOfBounds) := by
  unfold shown TooBig
  split <;> simp

theorem Refusal.tooBig {v : PyVal} {er : Exc} (h : TooBig er) (hp : ¬ Printable v) : Refusal v er := by
  rcases h with rfl | rfl
  · exact .inl rfl
  · exact .inr ⟨rfl, hp⟩

end EthAbi
