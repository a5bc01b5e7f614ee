import Verif.Lemmas.Shift

/-! # A tuple type against the list of its components -/
namespace EthAbi
open Spec

theorem spellsComps_intercalate [Ext] {types : List TypeStr} {ts : List Ty} (h : Names types ts)
    (hne : types ≠ []) : SpellsComps true (List.intercalate t!"," types) ts := by
  induction h with
  | nil => exact absurd rfl hne
  | @cons s t types ts h1 h2 ih =>
    cases h2 with
    | nil => simpa using SpellsComps.one h1.1
    | @cons s' t' types ts h3 h4 =>
      have := SpellsComps.cons h1.1 (ih (by simp))
      simpa [List.intercalate, List.append_assoc] using this

theorem tupleStr_supported [Ext] {types : List TypeStr} {ts : List Ty} (h : Names types ts)
    (hne : types ≠ []) : Supported (tupleStr types) (.tuple ts) :=
  ⟨.tuple (spellsComps_intercalate h hne), by simp [tupleStr]⟩

theorem dyn_mkTuple [Ext] (ts : List Ty) (hv : ∀ t ∈ ts, t.Valid) :
    (mkTuple (encsOf false ts)).dyn = Ty.anyDynamic ts := by
  rw [(top_good false hv).dyn_eq, anyDynamic_eq]
  rfl

theorem tuple_one [Ext] {ts : List Ty} (hv : ∀ t ∈ ts, t.Valid) (v : PyVal) :
    (mkTuple [mkTuple (encsOf false ts)]).call (.list [v]) =
      ((mkTuple (encsOf false ts)).call v >>= fun b =>
        .ok ((if Ty.anyDynamic ts then be32 32 else []) ++ b)) := by
  have hdyn := dyn_mkTuple ts hv
  generalize hE : mkTuple (encsOf false ts) = E at hdyn
  have hvc : ∀ v, validateOrCall E v = E.validateValue v := by
    subst hE; exact fun v => (top_good false hv).validateOrCall_eq v
  have hce : ∀ v er, E.validateValue v = .error er → E.call v = .error er := by
    subst hE
    intro v er h
    have h' : tupleValidate (encsOf false ts) v = .error er := h
    show tupleEncode (encsOf false ts) v = _
    simp only [tupleEncode, h', error_bind]
  show tupleEncode [E] (.list [v]) = _
  simp only [tupleEncode, tupleValidate, asListLike?, List.length_cons, List.length_nil,
    ne_eq, not_true_eq_false, if_false, tupleValidateItems, hvc, tupleChunks]
  cases hval : E.validateValue v with
  | error er => rw [hce v er hval]; rfl
  | ok u =>
    cases hcall : E.call v with
    | error er => rfl
    | ok b =>
      simp only [ok_bind, hdyn, pure_eq_ok]
      cases Ty.anyDynamic ts
      · simp [headLength, tailOffsets, tupleHeadChunks]
      · simp [headLength, tailOffsets, tupleHeadChunks, encodeUint256_eq]

theorem posAll_static_strict {ts : List Ty} (h : Ty.anyDynamic ts = false) (strict : Bool) (d : Bytes)
    (base p : Nat) : posAll strict ts d base p = posAll true ts d base p := by
  induction ts generalizing p with
  | nil => rfl
  | cons t ts ih =>
    simp only [Ty.anyDynamic, Bool.or_eq_false_iff] at h
    simp only [posAll, ih h.2, h.1, posItem, Bool.false_eq_true, if_false,
      posDec_static_strict h.1 strict true]

theorem posTop_tuple_static {ts : List Ty} (h : Ty.anyDynamic ts = false) (strict : Bool) (d : Bytes) :
    posTop strict [.tuple ts] d = (posTop strict ts d >>= fun xs => .ok [.seq xs]) := by
  have hd : (Ty.tuple ts).dynamic = false := h
  have h1 : posTop strict ts d = posTop true ts d := by
    simp only [posTop, posAll_static_strict h strict]
  have h2 : posDec true (.tuple ts) d 0 = (posTop true ts d >>= fun xs => .ok (.seq xs)) := by
    simp only [posDec, posTop, bind_assoc', pure_eq_ok, Nat.zero_add]
  rw [h1]
  simp only [posTop, checkAll, checkHead, hd, Bool.false_eq_true, if_false, posAll, posItem,
    posDec_static_strict hd strict true, h2, pure_eq_ok]
  cases checkAll ts d 0 (32 * headWordsAll ts) 0 with
  | error e => rfl
  | ok u =>
    cases posAll true ts d 0 0 with
    | error e => rfl
    | ok xs => rfl

theorem at_be32_inj {d : Bytes} {p m n : Nat} (hm : m < 2 ^ 256) (hn : n < 2 ^ 256)
    (h : At d p (be32 m)) (h' : At d p (be32 n)) : m = n := by
  have e1 := List.prefix_iff_eq_take.1 h
  have e2 := List.prefix_iff_eq_take.1 h'
  have : be32 m = be32 n := by rw [e1, e2]; simp [be32]
  rw [← bigEndianToInt_be32 hm, this, bigEndianToInt_be32 hn]

/-- Reading a dynamic tuple behind the offset 32. -/
theorem readsArgs_tuple_dynamic {ts : List Ty} (h : Ty.anyDynamic ts = true) {d : Bytes}
    (hne : d ≠ []) {ys : List Val} :
    ReadsArgs codeHead true [.tuple ts] (be32 32 ++ d) ys ↔
      ∃ xs, ys = [.seq xs] ∧ ReadsArgs codeHead true ts d xs := by
  have hd : (Ty.tuple ts).dynamic = true := h
  have hl : (be32 32).length = 32 := by simp [be32]
  have hc : codeHead [Ty.tuple ts] = 32 := by simp [codeHead, headWordsAll, headWords, hd]
  have hlen : 0 < d.length := List.length_pos_iff.2 hne
  have hsh : ∀ xs, Reads codeHead true (.tuple ts) (be32 32 ++ d) 32 (.seq xs) ↔
      ReadsArgs codeHead true ts d xs := by
    intro xs
    have := reads_shift (mh := codeHead) (.tuple ts) (be32 32) d 0 (.seq xs)
    rw [hl] at this
    simpa [Reads, ReadsArgs] using this
  constructor
  · intro hr
    cases ys with
    | nil => exact hr.elim
    | cons y ys =>
      cases ys with
      | cons y' ys => exact (hr.2).elim
      | nil =>
        have hi := hr.1
        rw [hd] at hi
        simp only [ReadsItem, if_true] at hi
        obtain ⟨off, ho, hat, _, _, hr'⟩ := hi
        have : off = 32 := at_be32_inj ho (by norm_num) hat (by simp [At])
        subst this
        cases y with
        | seq xs => exact ⟨xs, rfl, (hsh xs).1 (by simpa using hr')⟩
        | _ => exact hr'.1.elim
  · rintro ⟨xs, rfl, hr⟩
    refine ⟨?_, trivial⟩
    rw [hd]
    simp only [ReadsItem, if_true]
    refine ⟨32, by norm_num, by simp [At], by rw [hc], ?_, by simpa using (hsh xs).2 hr⟩
    simp only [List.length_append, hl]
    omega

end EthAbi
