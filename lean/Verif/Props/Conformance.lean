import Verif.Lemmas.Canonical
import Verif.Lemmas.Shadow
import Verif.Lemmas.TupleStr
import Verif.Props.Examples

/-! # C03, C36, C42: the shape of encodings and of decoded values -/
namespace EthAbi
open Spec

/-! ## C03 -/

/-- The length of what `encode` returns, whatever it accepts. -/
theorem encode_length [Ext] {types : List TypeStr} {ts : List Ty} (hT : Names types ts) {args : PyVal}
    {b : Bytes} (h : encode types args = .ok b) :
    b.length % 32 = 0 ∧ ((∀ t ∈ ts, t.dynamic = false) → b.length = Ty.sizes ts) := by
  obtain ⟨xs, hx, rfl⟩ := shadow_encode hT h
  by_cases hne : ts = []
  · subst hne
    cases xs with
    | nil => exact ⟨rfl, fun _ => rfl⟩
    | cons x xs => exact hx.elim
  · have hv : (Ty.tuple ts).Valid := ⟨hne, Ty.allValid_iff.2 (supportedAll_valid hT)⟩
    have h1 := enc_length (shadow (.tuple ts)) (shadow_valid _ hv) (.seq xs) hx
    refine ⟨h1.1, fun hs => ?_⟩
    have h2 := h1.2.2 (by
      rw [shadow_dynamic, Ty.dynamic, anyDynamic_eq]
      simpa using hs)
    rw [shadow_size] at h2
    exact h2

/-- **C03.**  Every encoding is a whole number of 32-byte words. -/
theorem C03_multiple_of_32 [Ext] {types : List TypeStr} {args : PyVal} {b : Bytes}
    (h : encode types args = .ok b) : b.length % 32 = 0 := by
  obtain ⟨ts, _, hT, _⟩ := encode_ok (pk := false) h
  exact (encode_length hT h).1

/-- **C03.**  The length of an encoding of static types depends on the types alone: 32 bytes for each
elementary type, `k` times the element for `T[k]`, the sum for a tuple and for the list of types. -/
theorem C03_static_length [Ext] {types : List TypeStr} {ts : List Ty} (hT : Names types ts)
    (hs : ∀ t ∈ ts, t.dynamic = false) {args : PyVal} {b : Bytes}
    (h : encode types args = .ok b) : b.length = Ty.sizes ts := (encode_length hT h).2 hs

example : (encodeArgs Ex.tys Ex.vals).length % 32 = 0 :=
  letI := Ex.ext
  C03_multiple_of_32 Ex.encodes

example (b : Bytes) (h : @encode Ex.ext [t!"(bool,fixed8x1)[3]"] (.list [.list
    [.tuple [.bool true, .dec (.fin (-125) (-2))], .tuple [.bool true, .int 1],
     .tuple [.bool false, .int 0]]]) = .ok b) : b.length = 192 :=
  letI := Ex.ext
  C03_static_length (types := [t!"(bool,fixed8x1)[3]"]) (ts := [.sized 3 (.tuple [.bool, .fixed 8 1])])
    (.cons ⟨.sized (s := t!"(bool,fixed8x1)") (k := 3) (.tuple (s := t!"bool,fixed8x1")
      (.cons (s := t!"bool") (s' := t!"fixed8x1") .bool
        (.one (.fixed (m := 8) (n := 1) (by decide) (by decide) (by decide)))))
      (by decide) (by decide), by decide⟩ .nil) (by decide) h

example : ∃ b, @encode Ex.ext [t!"(bool,fixed8x1)[3]"] (.list [.list
    [.tuple [.bool true, .dec (.fin (-125) (-2))], .tuple [.bool true, .int 1],
     .tuple [.bool false, .int 0]]]) = .ok b :=
  ⟨wordOf 1 ++ wordOf (-12) ++ wordOf 1 ++ wordOf 10 ++ wordOf 0 ++ wordOf 0, by decide +kernel⟩

/-! ## C36 -/

/-- **C36.**  `encode(['(t1,...,tn)'], [v])` and `encode([t1,...,tn], v)` return the same bytes, after
the word 32 if the tuple is dynamic, or raise the same exception. -/
theorem C36_encode [Ext] {types : List TypeStr} {ts : List Ty} (hT : Names types ts)
    (hne : types ≠ []) {v : PyVal} {vs : List PyVal} (hv : IsListOf v vs) :
    encode [tupleStr types] (.list [v]) =
      match encode types v with
      | .ok b => .ok (if ts.any (·.dynamic) then be32 32 ++ b else b)
      | .error e => .error e := by
  have hval := supportedAll_valid hT
  have h1 : encode types v = _ := encode_eq false hT (isListOf_iff.1 hv)
  have h2 : encode [tupleStr types] (.list [v]) = _ :=
    encode_eq false (.cons (tupleStr_supported hT hne) .nil) rfl
  rw [h2, h1]
  refine (tuple_one hval v).trans ?_
  rw [anyDynamic_eq]
  cases (mkTuple (encsOf false ts)).call v with
  | error e => rfl
  | ok b => cases ts.any (·.dynamic) <;> rfl

/-- **C36.**  A static tuple is decoded as its components are, and raises the same exceptions. -/
theorem C36_decode_static [Ext] {types : List TypeStr} {ts : List Ty} (hT : Names types ts)
    (hne : types ≠ []) (hs : ∀ t ∈ ts, t.dynamic = false) {data : PyVal} {d : Bytes}
    (hd : IsBytes data d) (hl : Fits d) (strict : Bool) :
    decode [tupleStr types] data strict =
      match decode types data strict with
      | .ok v => .ok (.tuple [v])
      | .error e => .error e := by
  rw [decode_eq hT (isBytes_iff.1 hd) hl, decode_eq (.cons (tupleStr_supported hT hne) .nil)
    (isBytes_iff.1 hd) hl, posTop_tuple_static (by rw [anyDynamic_eq]; simpa using hs)]
  cases posTop strict ts d with
  | error e => rfl
  | ok xs => rfl

/-- **C36.**  A dynamic tuple behind the word 32 decodes to `v` if and only if the rest decodes to
`v` as the list of the components. -/
theorem C36_decode_dynamic [Ext] {types : List TypeStr} {ts : List Ty} (hT : Names types ts)
    (hs : ∃ t ∈ ts, t.dynamic = true) {d : Bytes} (hl : Fits (be32 32 ++ d)) (v : PyVal) :
    decode [tupleStr types] (.bytes (be32 32 ++ d)) = .ok (.tuple [v]) ↔
      decode types (.bytes d) = .ok v := by
  have hne : types ≠ [] := by
    rintro rfl
    cases hT
    obtain ⟨t, ht, _⟩ := hs
    cases ht
  have hdyn : Ty.anyDynamic ts = true := by rw [anyDynamic_eq]; simpa using hs
  have hd : Fits d := by simp only [Fits, List.length_append] at hl ⊢; omega
  rw [decode_reads hT (.bytes _) hd,
    decode_reads (.cons (tupleStr_supported hT hne) .nil) (.bytes _) hl]
  by_cases h0 : d = []
  · subst h0
    constructor
    · rintro ⟨ys, h1, _⟩
      exfalso
      cases ys with
      | nil => exact h1.elim
      | cons y ys =>
        have hi := h1.1
        rw [show (Ty.tuple ts).dynamic = true from hdyn] at hi
        simp only [ReadsItem, if_true] at hi
        obtain ⟨off, _, _, h2, h3, _⟩ := hi
        simp [codeHead, headWordsAll, headWords, show (Ty.tuple ts).dynamic = true from hdyn] at h2 h3
        omega
    · rintro ⟨xs, h1, _⟩
      exfalso
      cases ts with
      | nil => cases hdyn
      | cons t ts =>
        have h2 := readsAll_head (supportedAll_valid hT) h1 (by simp)
        have h3 := headStep_pos (supportedAll_valid hT t (by simp))
        simp only [headBytes, List.map_cons, List.sum_cons, List.length_nil] at h2
        omega
  · constructor
    · rintro ⟨ys, h1, h2⟩
      obtain ⟨xs, rfl, h3⟩ := (readsArgs_tuple_dynamic hdyn h0).1 h1
      simp only [toPyAll, toPy, PyVal.tuple.injEq, List.cons.injEq, and_true] at h2
      exact ⟨xs, h3, h2⟩
    · rintro ⟨xs, h1, rfl⟩
      exact ⟨_, (readsArgs_tuple_dynamic hdyn h0).2 ⟨xs, rfl, h1⟩, rfl⟩

example : @encode Ex.ext [tupleStr Ex.types] (.list [.list Ex.args]) =
    .ok (be32 32 ++ encodeArgs Ex.tys Ex.vals) :=
  letI := Ex.ext
  (C36_encode Ex.names (by decide) (.list _)).trans (by rw [Ex.encodes]; rfl)

example : @decode Ex.ext [tupleStr Ex.types] (.bytes (be32 32 ++ encodeArgs Ex.tys Ex.vals)) true =
    .ok (.tuple [.tuple
      [.tuple [.tuple [.int (-2), .str (ofChars t!"abc")], .tuple [.int 127, .str []]],
       .bytes [1, 2, 3], .dec (.fin (-12) (-1)), .int 7]]) :=
  letI := Ex.ext
  (C36_decode_dynamic Ex.names ⟨.bytes, by simp [Ex.tys], rfl⟩ (by decide +kernel) _).2 Ex.decodes

example : tupleStr [t!"uint8", t!"bool[2]"] = t!"(uint8,bool[2])" := by decide

/-! ## C42 -/

/-- **C42.**  Whatever `decode` returns for any data, strict or not: a tuple with one item for each
type, and each item is in the range of its type (`Spec.Canonical`). -/
theorem C42_range [Ext] {types : List TypeStr} {ts : List Ty} (hT : Names types ts)
    {data : PyVal} {d : Bytes} (hd : IsBytes data d) (hl : Fits d) {strict : Bool} {v : PyVal}
    (h : decode types data strict = .ok v) : ∃ vs, v = .tuple vs ∧ CanonicalAll ts vs := by
  obtain ⟨xs, h1, rfl⟩ := (decode_reads hT hd hl).1 h
  exact ⟨_, rfl, toPy_canonicalAll (fun t _ => toPy_canonical t) (readsArgs_of h1)⟩

example : ∃ vs : List PyVal, PyVal.tuple
    [.tuple [.tuple [.int (-2), .str (ofChars t!"abc")], .tuple [.int 127, .str []]],
     .bytes [1, 2, 3], .dec (.fin (-12) (-1)), .int 7] = .tuple vs ∧ CanonicalAll Ex.tys vs :=
  letI := Ex.ext
  C42_range Ex.names (.bytes _) Ex.fits Ex.decodes

end EthAbi
