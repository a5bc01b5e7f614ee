import Verif.Lemmas.Pieces
import Verif.Props.Examples

/-! # An argument list is encoded as its arguments are encoded one by one (C75) -/
namespace EthAbi
open Spec

/-- **C75** (apart).  If `encode` accepts a list of arguments, it accepts each of them alone, and the encoding is put together
from those by the head-tail layout of the ABI. -/
theorem C75_apart [Ext] {types : List TypeStr} {ts : List Ty} (hT : Names types ts) {args : PyVal} {vs : List PyVal}
    (ha : IsListOf args vs) {b : Bytes} (h : encode types args = .ok b) :
    types.length = vs.length ∧ ∃ cs, List.Forall₂
      (fun (p : TypeStr × PyVal) c => encode [p.1] (.list [p.2]) = .ok c) (types.zip vs) cs ∧
      b = layout (List.zipWith piece ts cs) := by
  have he : encode types args = (mkTuple (encsOf false ts)).call args := encode_eq false hT (isListOf_iff.1 ha)
  rw [he] at h
  obtain ⟨vs', bs, h1, h2, h3, rfl⟩ := tupleEncode_raw (show tupleEncode (encsOf false ts) args = .ok b from h)
  rw [isListOf_like ha] at h1
  cases h1
  have hl : types.length = vs.length := by rw [h2, encsOf_length]; exact hT.length_eq
  obtain ⟨cs, h4, h5⟩ := callAll_pieces hT hl h3
  exact ⟨hl, cs, h4, by rw [h5]⟩

/-- **C75** (together).  If `encode` accepts each of the arguments alone, it accepts them all together (if the encoding has
less than `2^256` bytes). -/
theorem C75_together [Ext] {types : List TypeStr} {ts : List Ty} (hT : Names types ts) {args : PyVal} {vs : List PyVal}
    (ha : IsListOf args vs) (hl : types.length = vs.length) {cs : List Bytes}
    (hc : List.Forall₂ (fun (p : TypeStr × PyVal) c => encode [p.1] (.list [p.2]) = .ok c) (types.zip vs) cs)
    (hb : (layout (List.zipWith piece ts cs)).length < 2 ^ 256) :
    encode types args = .ok (layout (List.zipWith piece ts cs)) := by
  have he : encode types args = (mkTuple (encsOf false ts)).call args := encode_eq false hT (isListOf_iff.1 ha)
  rw [he]
  obtain ⟨bs, h1, h2, h3⟩ := pieces_callAll hT hl hc
  have hlen : vs.length = (encsOf false ts).length := by rw [encsOf_length, ← hl]; exact hT.length_eq
  have hval : tupleValidate (encsOf false ts) args = .ok () := by
    simp only [tupleValidate, isListOf_like ha, hlen, ne_eq, not_true_eq_false, if_false]
    exact h3
  rw [← h2]
  rcases tupleEncode_spec (isListOf_like ha) hval h1 with h4 | ⟨_, _, _, h4⟩
  · exact h4
  · rw [h2] at h4
    omega

/-- The single encodings of two argument lists, one after the other. -/
theorem eachEncodes_append [Ext] {types types' : List TypeStr} {vs vs' : List PyVal} {cs cs' : List Bytes}
    (hl : types.length = vs.length)
    (h : List.Forall₂ (fun (p : TypeStr × PyVal) c => encode [p.1] (.list [p.2]) = .ok c) (types.zip vs) cs)
    (h' : List.Forall₂ (fun (p : TypeStr × PyVal) c => encode [p.1] (.list [p.2]) = .ok c) (types'.zip vs') cs') :
    List.Forall₂ (fun (p : TypeStr × PyVal) c => encode [p.1] (.list [p.2]) = .ok c)
      ((types ++ types').zip (vs ++ vs')) (cs ++ cs') := by
  rw [List.zip_append hl]
  exact List.rel_append h h'

/-- **C75** (more arguments).  If `encode` accepts two argument lists, it accepts one followed by the other, and the length
of the encoding is the sum of the two lengths.  If the types of the first list are static, the encoding begins with that of
the first list; if all are static it is that of the first list followed by that of the second. -/
theorem C75_append [Ext] {types types' : List TypeStr} {ts ts' : List Ty} (hT : Names types ts) (hT' : Names types' ts')
    {vs vs' : List PyVal} {b b' : Bytes} (h : encode types (.list vs) = .ok b) (h' : encode types' (.list vs') = .ok b')
    (hb : b.length + b'.length < 2 ^ 256) :
    ∃ c, encode (types ++ types') (.list (vs ++ vs')) = .ok c ∧ c.length = b.length + b'.length ∧
      ((∀ t ∈ ts, t.dynamic = false) → b <+: c) ∧
      ((∀ t ∈ ts ++ ts', t.dynamic = false) → c = b ++ b') := by
  obtain ⟨hl, cs, h1, rfl⟩ := C75_apart hT (.list vs) h
  obtain ⟨hl', cs', h1', rfl⟩ := C75_apart hT' (.list vs') h'
  have hz : List.zipWith piece (ts ++ ts') (cs ++ cs') = List.zipWith piece ts cs ++ List.zipWith piece ts' cs' := by
    refine List.zipWith_append ?_
    have e1 : types.length = ts.length := hT.length_eq
    have e2 := h1.length_eq
    simp only [List.length_zip, hl, Nat.min_self] at e2
    rw [← e1, ← e2, hl]
  have hlen := layout_append_length (List.zipWith piece ts cs) (List.zipWith piece ts' cs')
  have hall := C75_together (List.rel_append hT hT') (.list (vs ++ vs')) (by simp [hl, hl'])
    (eachEncodes_append hl h1 h1') (by rw [hz, hlen]; exact hb)
  rw [hz] at hall
  refine ⟨_, hall, hlen, fun hs => ?_, fun hs => ?_⟩
  · have := heads_static (pieces_static hs cs) (List.zipWith piece ts' cs')
      (headSize (List.zipWith piece ts cs ++ List.zipWith piece ts' cs'))
    refine ⟨heads (headSize (List.zipWith piece ts cs ++ List.zipWith piece ts' cs')) (List.zipWith piece ts' cs') ++
      tails (List.zipWith piece ts cs ++ List.zipWith piece ts' cs'), ?_⟩
    conv_rhs => rw [layout, this, List.append_assoc]
  · have hs1 := pieces_static (ts := ts) (fun t ht => hs t (List.mem_append_left _ ht)) cs
    have hs2 := pieces_static (ts := ts') (fun t ht => hs t (List.mem_append_right _ ht)) cs'
    rw [layout_static hs1, layout_static hs2, layout_static (by
      intro a ha
      rcases List.mem_append.1 ha with ha | ha
      · exact hs1 a ha
      · exact hs2 a ha), List.map_append, List.flatten_append]

/-- **C75** (fewer arguments).  If `encode` accepts an argument list, it accepts every beginning and every end of it. -/
theorem C75_parts [Ext] {types types' : List TypeStr} {ts ts' : List Ty} (hT : Names types ts) (hT' : Names types' ts')
    {vs vs' : List PyVal} (hl : types.length = vs.length) {c : Bytes}
    (h : encode (types ++ types') (.list (vs ++ vs')) = .ok c) (hb : c.length < 2 ^ 256) :
    ∃ b b', encode types (.list vs) = .ok b ∧ encode types' (.list vs') = .ok b' ∧ c.length = b.length + b'.length := by
  obtain ⟨hl', cs, h1, rfl⟩ := C75_apart (List.rel_append hT hT') (.list _) h
  have hl2 : types'.length = vs'.length := by simp only [List.length_append] at hl'; omega
  rw [List.zip_append hl] at h1
  obtain ⟨c1, c2, h2, h3, rfl⟩ := forall₂_append_split h1
  have hz : List.zipWith piece (ts ++ ts') (c1 ++ c2) = List.zipWith piece ts c1 ++ List.zipWith piece ts' c2 := by
    refine List.zipWith_append ?_
    have e1 : types.length = ts.length := hT.length_eq
    have e2 := h2.length_eq
    simp only [List.length_zip, hl, Nat.min_self] at e2
    rw [← e1, ← e2, hl]
  have hlen := layout_append_length (List.zipWith piece ts c1) (List.zipWith piece ts' c2)
  rw [hz, hlen] at hb
  exact ⟨_, _, C75_together hT (.list vs) hl h2 (by omega), C75_together hT' (.list vs') hl2 h3 (by omega),
    by rw [hz, hlen]⟩

/-- A list of a string, a number and an array, from the three single encodings. -/
example : letI := Ex.ext
    encode [t!"bytes", t!"uint8", t!"bool[]"] (.list [.bytes [1, 2], .int 7, .tuple [.bool true]]) =
      .ok (layout [(true, be32 2 ++ padRight32 [1, 2]), (false, be32 7), (true, be32 1 ++ be32 1)]) ∧
    encode [t!"bytes"] (.list [.bytes [1, 2]]) = .ok (be32 32 ++ (be32 2 ++ padRight32 [1, 2])) ∧
    encode [t!"uint8"] (.list [.int 7]) = .ok (be32 7) ∧
    encode [t!"bool[]"] (.list [.tuple [.bool true]]) = .ok (be32 32 ++ (be32 1 ++ be32 1)) := by decide +kernel

example : letI := Ex.ext
    ∃ c, encode [t!"uint8", t!"bytes"] (.list [.int 7, .bytes [1]]) = .ok c ∧ c.length = 128 ∧ be32 7 <+: c := by
  letI := Ex.ext
  obtain ⟨c, h1, h2, h3, _⟩ := C75_append (types := [t!"uint8"]) (types' := [t!"bytes"]) (ts := [.uint 8]) (ts' := [.bytes])
    (.cons ⟨.uint (n := 8) (by decide), by decide⟩ .nil) (.cons ⟨.bytes, by decide⟩ .nil) (vs := [.int 7])
    (vs' := [.bytes [1]]) (b := be32 7) (b' := be32 32 ++ (be32 1 ++ padRight32 [1])) (by decide +kernel)
    (by decide +kernel) (by decide +kernel)
  exact ⟨c, h1, h2, h3 (by simp [Ty.dynamic])⟩

end EthAbi
