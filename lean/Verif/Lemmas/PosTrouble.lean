import Verif.Lemmas.Errors
import Verif.Spec.Breaks

/-!
# Decoding by positions, with what is wrong

`posDecT` is `posDec` (`Lemmas/PosDec.lean`) with a `Trouble` in place of the exception.
-/
namespace EthAbi
open Spec

/-- A value or a trouble. -/
abbrev TM (α : Type) := Except Trouble α

namespace TM

@[simp] theorem ok_bind {α β : Type} (a : α) (f : α → TM β) : ((Except.ok a : TM α) >>= f) = f a := rfl
@[simp] theorem error_bind {α β : Type} (e : Trouble) (f : α → TM β) : ((Except.error e : TM α) >>= f) = .error e := rfl
@[simp] theorem pure_eq_ok {α : Type} (a : α) : (pure a : TM α) = .ok a := rfl
@[simp] theorem throw_eq_error {α : Type} (e : Trouble) : (throw e : TM α) = .error e := rfl

theorem bind_eq_ok {α β : Type} {x : TM α} {f : α → TM β} {b : β} :
    (x >>= f) = .ok b ↔ ∃ a, x = .ok a ∧ f a = .ok b := by
  cases x <;> simp

theorem bind_eq_error {α β : Type} {x : TM α} {f : α → TM β} {e : Trouble} :
    (x >>= f) = .error e ↔ x = .error e ∨ ∃ a, x = .ok a ∧ f a = .error e := by
  cases x <;> simp

/-- The exception alone. -/
def exc {α : Type} : TM α → PyM α
  | .ok a => .ok a
  | .error w => .error w.exc

@[simp] theorem exc_ok {α : Type} (a : α) : exc (.ok a) = .ok a := rfl
@[simp] theorem exc_error {α : Type} (w : Trouble) : exc (.error w : TM α) = .error w.exc := rfl

theorem exc_bind {α β : Type} (x : TM α) (f : α → TM β) : exc (x >>= f) = (exc x >>= fun a => exc (f a)) := by
  cases x <;> rfl

theorem exc_eq_ok {α : Type} {x : TM α} {a : α} : exc x = .ok a ↔ x = .ok a := by
  cases x <;> simp [exc]

theorem exc_eq_error {α : Type} {x : TM α} {e : Exc} : exc x = .error e ↔ ∃ w, x = .error w ∧ w.exc = e := by
  cases x <;> simp [exc]

end TM

/-- `wordAt`. -/
def wordT (d : Bytes) (p : Nat) : TM Nat :=
  if p + 32 ≤ d.length then .ok (bigEndianToInt ((d.drop p).take 32)) else .error (.noWord (d.length - p))

/-- A word of an elementary type. -/
def leafT (t : Ty) (d : Bytes) (p : Nat) : TM Val :=
  if p + 32 ≤ d.length then
    match leafDec t ((d.drop p).take 32) with
    | .ok x => .ok x
    | .error _ => .error (wordTrouble t ((d.drop p).take 32))
  else .error (.noWord (d.length - p))

/-- `posBytes`. -/
def bytesT (strict : Bool) (d : Bytes) (p : Nat) : TM Bytes := do
  let n ← wordT d p
  if ssizeMax < ceil32 n then throw .tooLong
  let b := (d.drop (p + 32)).take (ceil32 n)
  if strict then
    if b.length < ceil32 n then throw (.cut (ceil32 n) b.length)
    if b.drop n ≠ List.replicate (ceil32 n - n) 0 then throw (.padding (b.drop n))
  return b.take n

/-- `utf8Decode`. -/
def textT (b : Bytes) : TM PyStr :=
  match utf8Decode b with
  | .ok s => .ok s
  | .error _ => .error .notText

/-- `posMany`. -/
def manyT (f : Nat → TM Val) (step : Nat) : Nat → Nat → TM (List Val)
  | 0, _ => .ok []
  | n + 1, p => do
    let x ← f p
    let xs ← manyT f step n (p + step)
    return x :: xs

/-- `checkPtr`. -/
def ptrT (k : Container) (d : Bytes) (base endOff p : Nat) : TM Unit := do
  let off ← wordT d p
  if base + off < endOff ∨ d.length ≤ base + off then throw (.pointer k p)

/-- `checkPtrs`. -/
def ptrsT (d : Bytes) (base endOff : Nat) : Nat → Nat → TM Unit
  | 0, _ => .ok ()
  | n + 1, p => do
    ptrT .array d base endOff p
    ptrsT d base endOff n (p + 32)

/-- `posItem`. -/
def itemT (dynamic : Bool) (f : Nat → TM Val) (d : Bytes) (base p : Nat) : TM Val :=
  if dynamic then do
    let off ← wordT d p
    if ssizeMax < base + off then throw .tooLong
    f (base + off)
  else f p

/-- `posSeq`. -/
def seqT (dynamic : Bool) (f : Nat → TM Val) (step k : Nat) (d : Bytes) (p : Nat) : TM (List Val) := do
  (if dynamic then ptrsT d p (p + 32 * k) k p else .ok ())
  manyT (itemT dynamic f d p) step k p

/-- `checkHead`. -/
def headT (k : Container) (dynamic : Bool) (f : Nat → TM Val) (d : Bytes) (base endOff p : Nat) : TM Unit :=
  if dynamic then ptrT k d base endOff p
  else f p >>= fun _ => .ok ()

mutual
/-- `posDec`. -/
def posDecT (strict : Bool) : Ty → Bytes → Nat → TM Val
  | .bytes, d, p => do
    let b ← bytesT strict d p
    return .raw b
  | .string, d, p => do
    let b ← bytesT strict d p
    let s ← textT b
    return .text s
  | .sized k t, d, p => do
    let xs ← seqT t.dynamic (posDecT true t d) (headStep t) k d p
    return .seq xs
  | .dyn t, d, p => do
    let k ← wordT d p
    let xs ← seqT t.dynamic (posDecT true t d) (headStep t) k d (p + 32)
    return .seq xs
  | .tuple ts, d, p => do
    checkAllT ts d p (p + 32 * headWordsAll ts) p
    let xs ← posAllT true ts d p p
    return .seq xs
  | t, d, p => leafT t d p
/-- `checkAll`. -/
def checkAllT : List Ty → Bytes → Nat → Nat → Nat → TM Unit
  | [], _, _, _, _ => .ok ()
  | t :: ts, d, base, endOff, p => do
    headT .tuple t.dynamic (posDecT true t d) d base endOff p
    checkAllT ts d base endOff (p + headStep t)
/-- `posAll`. -/
def posAllT (strict : Bool) : List Ty → Bytes → Nat → Nat → TM (List Val)
  | [], _, _, _ => .ok []
  | t :: ts, d, base, p => do
    let x ← itemT t.dynamic (posDecT strict t d) d base p
    let xs ← posAllT strict ts d base (p + headStep t)
    return x :: xs
end

/-- `posTop`. -/
def posTopT (strict : Bool) (ts : List Ty) (d : Bytes) : TM (List Val) := do
  checkAllT ts d 0 (32 * headWordsAll ts) 0
  posAllT strict ts d 0 0

/-! ## The exceptions are the same -/

theorem wordT_exc (d : Bytes) (p : Nat) : (wordT d p).exc = wordAt d p := by
  simp only [wordT, wordAt, bytesAt]
  split <;> rfl

theorem wordTrouble_exc {t : Ty} (h : t.isLeaf = true) (b : Bytes) : (wordTrouble t b).exc = .nonEmptyPaddingBytes := by
  cases t <;> simp only [Ty.isLeaf] at h <;> first | rfl | (cases h; done) | skip
  simp only [wordTrouble]
  split <;> rfl

theorem leafT_exc {t : Ty} (h : t.isLeaf = true) (d : Bytes) (p : Nat) :
    (leafT t d p).exc = (bytesAt d p 32 >>= leafDec t) := by
  simp only [leafT, bytesAt]
  split
  · simp only [ok_bind]
    cases hl : leafDec t ((d.drop p).take 32) with
    | ok x => rfl
    | error e => simp only [TM.exc_error, wordTrouble_exc h, leafDec_error h hl]
  · rfl

theorem bytesT_exc (strict : Bool) (d : Bytes) (p : Nat) : (bytesT strict d p).exc = posBytes strict d p := by
  simp only [bytesT, posBytes, TM.exc_bind, wordT_exc]
  congr 1
  funext n
  split
  · rfl
  · cases strict
    · rfl
    · simp only [if_true]
      split
      · rfl
      · split <;> rfl

theorem textT_exc (b : Bytes) : (textT b).exc = utf8Decode b := by
  simp only [textT]
  cases h : utf8Decode b with
  | ok s => rfl
  | error e => rw [utf8Decode_error h]; rfl

theorem ptrT_exc (k : Container) (d : Bytes) (base lo p : Nat) : (ptrT k d base lo p).exc = checkPtr d base lo p := by
  simp only [ptrT, checkPtr, TM.exc_bind, wordT_exc]
  congr 1
  funext n
  split <;> rfl

theorem ptrsT_exc (d : Bytes) (base lo n p : Nat) : (ptrsT d base lo n p).exc = checkPtrs d base lo n p := by
  induction n generalizing p with
  | zero => rfl
  | succ n ih => simp only [ptrsT, checkPtrs, TM.exc_bind, ptrT_exc, ih]

theorem manyT_exc {f : Nat → TM Val} {g : Nat → PyM Val} (h : ∀ p, (f p).exc = g p) (step n p : Nat) :
    (manyT f step n p).exc = posMany g step n p := by
  induction n generalizing p with
  | zero => rfl
  | succ n ih => simp only [manyT, posMany, TM.exc_bind, h, ih]; rfl

theorem itemT_exc {f : Nat → TM Val} {g : Nat → PyM Val} (h : ∀ p, (f p).exc = g p) (dyn : Bool) (d : Bytes)
    (base p : Nat) : (itemT dyn f d base p).exc = posItem dyn g d base p := by
  simp only [itemT, posItem]
  cases dyn
  · exact h p
  · simp only [if_true, TM.exc_bind, wordT_exc]
    congr 1
    funext n
    split
    · rfl
    · exact h _

theorem seqT_exc {f : Nat → TM Val} {g : Nat → PyM Val} (h : ∀ p, (f p).exc = g p) (dyn : Bool) (step k : Nat)
    (d : Bytes) (p : Nat) : (seqT dyn f step k d p).exc = posSeq dyn g step k d p := by
  simp only [seqT, posSeq, TM.exc_bind, manyT_exc (itemT_exc h dyn d p)]
  cases dyn
  · rfl
  · simp only [if_true, ptrsT_exc]

theorem headT_exc {f : Nat → TM Val} {g : Nat → PyM Val} (h : ∀ p, (f p).exc = g p) (k : Container) (dyn : Bool)
    (d : Bytes) (base lo p : Nat) : (headT k dyn f d base lo p).exc = checkHead dyn g d base lo p := by
  simp only [headT, checkHead]
  cases dyn
  · simp only [Bool.false_eq_true, if_false, TM.exc_bind, h]; rfl
  · simp only [if_true, ptrT_exc]

theorem allT_exc {ts : List Ty} (h : ∀ t ∈ ts, ∀ strict d p, (posDecT strict t d p).exc = posDec strict t d p)
    (strict : Bool) (d : Bytes) : (∀ base lo p, (checkAllT ts d base lo p).exc = checkAll ts d base lo p) ∧
      ∀ base p, (posAllT strict ts d base p).exc = posAll strict ts d base p := by
  induction ts with
  | nil => exact ⟨fun _ _ _ => rfl, fun _ _ => rfl⟩
  | cons t ts ih =>
    obtain ⟨i1, i2⟩ := ih (fun t ht => h t (by simp [ht]))
    refine ⟨fun base lo p => ?_, fun base p => ?_⟩
    · simp only [checkAllT, checkAll, TM.exc_bind, headT_exc (h t (by simp) true d), i1]
    · simp only [posAllT, posAll, TM.exc_bind, itemT_exc (h t (by simp) strict d), i2]; rfl

theorem posDecT_exc (t : Ty) : ∀ strict d p, (posDecT strict t d p).exc = posDec strict t d p := by
  refine Spec.Ty.ind (P := fun t => ∀ strict d p, (posDecT strict t d p).exc = posDec strict t d p)
    ?_ ?_ ?_ ?_ ?_ ?_ ?_ ?_ ?_ ?_ ?_ ?_ t
  iterate 7
    intros
    rename_i strict d p
    rw [posDec_leaf rfl]
    exact leafT_exc rfl d p
  · intro strict d p
    simp only [posDecT, posDec, TM.exc_bind, bytesT_exc]; rfl
  · intro strict d p
    simp only [posDecT, posDec, TM.exc_bind, bytesT_exc, textT_exc]; rfl
  · intro k t ih strict d p
    simp only [posDecT, posDec, TM.exc_bind, seqT_exc (ih true d)]; rfl
  · intro t ih strict d p
    simp only [posDecT, posDec, TM.exc_bind, wordT_exc, seqT_exc (ih true d)]; rfl
  · intro ts ih strict d p
    obtain ⟨h1, h2⟩ := allT_exc ih true d
    simp only [posDecT, posDec, TM.exc_bind, h1, h2]; rfl

theorem posTopT_exc (strict : Bool) (ts : List Ty) (d : Bytes) : (posTopT strict ts d).exc = posTop strict ts d := by
  obtain ⟨h1, h2⟩ := allT_exc (ts := ts) (fun t _ => posDecT_exc t) strict d
  simp only [posTopT, posTop, TM.exc_bind, h1, h2]

end EthAbi
