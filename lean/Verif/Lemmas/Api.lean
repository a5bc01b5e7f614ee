import Verif.Lemmas.Codec
import Verif.Spec.Api

/-! # The vocabulary of the API statements in terms of the model's own -/
namespace EthAbi
open Spec

theorem isListOf_iff {v : PyVal} {vs : List PyVal} : IsListOf v vs ↔ listOrTuple? v = some vs := by
  constructor
  · rintro (_ | _) <;> rfl
  · intro h
    cases v <;> simp only [listOrTuple?, Option.some.injEq, reduceCtorEq] at h
    · subst h; exact .list _
    · subst h; exact .tuple _

theorem isListOf_like {v : PyVal} {vs : List PyVal} (h : IsListOf v vs) : asListLike? v = some vs :=
  listOrTuple_like (isListOf_iff.1 h)

theorem isSeqOf_iff {v : PyVal} {vs : List PyVal} : IsSeqOf v vs ↔ asListLike? v = some vs := by
  constructor
  · rintro (_ | _ | _) <;> rfl
  · intro h
    cases v <;> simp only [asListLike?, Option.some.injEq, reduceCtorEq] at h
    · subst h; exact .list _
    · subst h; exact .tuple _
    · subst h; exact .seq _

theorem isBytes_iff {v : PyVal} {b : Bytes} : IsBytes v b ↔ asBytes? v = some b := by
  constructor
  · intro h; cases h <;> rfl
  · intro h
    cases v <;> first | cases h | skip
    · exact .bytes _
    · exact .bytearray _

theorem denoteAll_of [Ext] {ts : List Ty} {vs : List PyVal} {xs : List Val}
    (h : denoteAll ts vs = some xs) : Val.OfAll ts xs := by
  induction ts generalizing vs xs with
  | nil =>
    cases vs with
    | nil => cases h; trivial
    | cons v vs => cases h
  | cons t ts ih =>
    cases vs with
    | nil => cases h
    | cons v vs =>
      obtain ⟨y, ys, h1, h2, rfl⟩ := denoteAll_cons.1 h
      exact ⟨denote_of t v y h1, ih h2⟩

theorem fits_lt {b : Bytes} (h : Fits b) : b.length < 2 ^ 256 :=
  lt_of_le_of_lt h (by norm_num [ssizeMax])

/-- A successful `encode` on the grid. -/
theorem encode_spec [Ext] {types : List TypeStr} {ts : List Ty} (hT : Names types ts) {args : PyVal}
    {vs : List PyVal} (ha : IsListOf args vs) {b : Bytes} (h : encode types args = .ok b)
    (hg : OnGridAll ts vs) : ∃ xs, denoteAll ts vs = some xs ∧ b = encodeArgs ts xs := by
  obtain ⟨ts', vs', h1, h2, _, h3⟩ := encode_ok (pk := false) h
  obtain rfl := supportedAll_unique hT h1
  rw [isListOf_iff] at ha
  rw [ha] at h2
  cases h2
  exact h3 hg

theorem encode_of [Ext] {types : List TypeStr} {ts : List Ty} (hT : Names types ts) {args : PyVal}
    {vs : List PyVal} (ha : IsListOf args vs) {xs : List Val} (hd : denoteAll ts vs = some xs)
    (hl : (encodeArgs ts xs).length < 2 ^ 256) : encode types args = .ok (encodeArgs ts xs) :=
  encode_denote false hT (isListOf_iff.1 ha) hd hl

theorem decode_reads [Ext] {types : List TypeStr} {ts : List Ty} (hT : Names types ts)
    {data : PyVal} {d : Bytes} (hd : IsBytes data d) (hl : Fits d) {strict : Bool} {v : PyVal} :
    decode types data strict = .ok v ↔
      ∃ xs, ReadsArgs codeHead strict ts d xs ∧ v = .tuple (toPyAll ts xs) := by
  rw [decode_iff (isBytes_iff.1 hd) hl]
  constructor
  · rintro ⟨ts', xs, h1, h2, h3⟩
    obtain rfl := supportedAll_unique hT h1
    exact ⟨xs, h2, h3⟩
  · rintro ⟨xs, h2, h3⟩
    exact ⟨ts, xs, hT, h2, h3⟩

theorem names_of_decode [Ext] {types : List TypeStr} {data : PyVal} {d : Bytes} (hd : IsBytes data d)
    (hl : Fits d) {strict : Bool} {v : PyVal} (h : decode types data strict = .ok v) :
    ∃ ts, Names types ts := by
  obtain ⟨ts, _, h1, _⟩ := (decode_iff (isBytes_iff.1 hd) hl).1 h
  exact ⟨ts, h1⟩

theorem toPyAll_inj [Ext] {ts : List Ty} {xs ys : List Val} (hx : Val.OfAll ts xs)
    (hy : Val.OfAll ts ys) (h : toPyAll ts xs = toPyAll ts ys) : xs = ys := by
  have h1 := denote_toPyAll (fun t _ => denote_toPy t) hx
  have h2 := denote_toPyAll (fun t _ => denote_toPy t) hy
  rw [h, h2] at h1
  injection h1 with h1
  exact h1.symm

theorem readsArgs_of {mh : List Ty → Nat} {strict : Bool} {ts : List Ty} {d : Bytes} {xs : List Val}
    (h : ReadsArgs mh strict ts d xs) : Val.OfAll ts xs :=
  readsAll_of (fun t _ p x => reads_of t strict d p x) h

end EthAbi
