import Verif.Props.Examples
import Verif.Lemmas.Packed
import Verif.Lemmas.Alike

/-!
# C34: packed encoding is concatenation

`Spec.encPacked` (Verif/Spec/Values.lean) is the packed form of a value.  The first theorem compares
`encode_packed` with it.  The others speak of every accepted argument: they cover the fixed-point
arguments that are accepted although they are not multiples of `10^-N` (see C01), for which there is
no value to compare with.
-/
namespace EthAbi
open Spec

/-! ## C34 -/

/-- **C34.**  `encode_packed` gives the concatenated packed forms of the values that the arguments
denote. -/
theorem C34_packed [Ext] {types : List TypeStr} {ts : List Ty} (hT : Names types ts) {args : PyVal}
    {vs : List PyVal} (ha : IsListOf args vs) (hg : OnGridAll ts vs) {b : Bytes}
    (h : encodePacked types args = .ok b) :
    ∃ xs, denoteAll ts vs = some xs ∧ b = encPackedAll ts xs := by
  obtain ⟨ts', vs', h1, h2, _, h3⟩ := encode_ok (pk := true) h
  obtain rfl := supportedAll_unique hT h1
  rw [isListOf_iff] at ha
  rw [ha] at h2
  cases h2
  exact h3 hg

/-- **C34, converse.**  Arguments that denote values are accepted. -/
theorem C34_complete [Ext] {types : List TypeStr} {ts : List Ty} (hT : Names types ts) {args : PyVal}
    {vs : List PyVal} (ha : IsListOf args vs) {xs : List Val} (hd : denoteAll ts vs = some xs)
    (hl : Fits (encPackedAll ts xs)) : encodePacked types args = .ok (encPackedAll ts xs) :=
  encode_denote true hT (isListOf_iff.1 ha) hd (fits_lt hl)

/-- **C34.**  The packed encoding of any accepted arguments is the concatenation of the packed
encodings of the arguments one by one. -/
theorem C34_concat [Ext] {types : List TypeStr} {args : PyVal} {vs : List PyVal}
    (ha : IsListOf args vs) {b : Bytes} (h : encodePacked types args = .ok b) :
    types.length = vs.length ∧ ∃ bs, List.Forall₂
      (fun (p : TypeStr × PyVal) c => encodePacked [p.1] (.list [p.2]) = .ok c) (types.zip vs) bs ∧
      b = bs.flatten := by
  obtain ⟨ts, vs', hT, h2, _, _⟩ := encode_ok (pk := true) h
  have he : encodePacked types args = (mkTuple (encsOf true ts)).call args := encode_eq true hT (isListOf_iff.1 ha)
  replace ha := isListOf_like ha
  rw [he] at h
  obtain ⟨vs', bs, h1, h2, h3, rfl⟩ := tupleEncode_raw (show tupleEncode (encsOf true ts) args = .ok b from h)
  rw [ha] at h1
  cases h1
  obtain ⟨h4, h5, h6⟩ := packed_callAll hT h2 h3
  exact ⟨h4, bs, h6, by rw [layout_static (encsOf_static (supportedAll_valid hT) bs), elems_snd h5]⟩

/-- **C34, arrays.**  The packed encoding of an array `T[k]` is the concatenation of the packed
encodings of its items as `T`, with no length and no padding. -/
theorem C34_sized [Ext] {s s' : TypeStr} {t : Ty} {k : Nat} (hs : Supported s (.sized k t))
    (ht : Supported s' t) {v : PyVal} {b : Bytes} (h : encodePacked [s] (.list [v]) = .ok b) :
    ∃ vs bs, IsSeqOf v vs ∧ vs.length = k ∧
      List.Forall₂ (fun u c => encodePacked [s'] (.list [u]) = .ok c) vs bs ∧ b = bs.flatten := by
  obtain ⟨vs, bs, h1, h2, h3⟩ := packed_array (sz := some k) ht ((packed_one hs v b).1 h)
  exact ⟨vs, bs, h1, h2 k rfl, h3⟩

/-- **C34, arrays.**  The same for `T[]`. -/
theorem C34_dyn [Ext] {s s' : TypeStr} {t : Ty} (hs : Supported s (.dyn t))
    (ht : Supported s' t) {v : PyVal} {b : Bytes} (h : encodePacked [s] (.list [v]) = .ok b) :
    ∃ vs bs, IsSeqOf v vs ∧
      List.Forall₂ (fun u c => encodePacked [s'] (.list [u]) = .ok c) vs bs ∧ b = bs.flatten := by
  obtain ⟨vs, bs, h1, _, h3⟩ := packed_array (sz := none) ht ((packed_one hs v b).1 h)
  exact ⟨vs, bs, h1, h3⟩

/-- **C34, tuples.**  The packed encoding of a tuple `(T₁,…)` is that of its components as an
argument list, for a list, a tuple or another sequence. -/
theorem C34_tuple [Ext] {s : TypeStr} {types : List TypeStr} {ts : List Ty}
    (hs : Supported s (.tuple ts)) (hT : Names types ts) {v : PyVal} {b : Bytes} :
    encodePacked [s] (.list [v]) = .ok b ↔ ∃ vs, IsSeqOf v vs ∧ encodePacked types (.list vs) = .ok b := by
  rw [packed_one hs]
  have hsame : ∀ vs, IsSeqOf v vs → ((encOf true (.tuple ts)).call v = .ok b ↔ encodePacked types (.list vs) = .ok b) := by
    intro vs hv
    have he : encodePacked types (.list vs) = (encOf true (.tuple ts)).call (.list vs) := encode_eq true hT rfl
    rw [he]
    rcases ((formFree true (.tuple ts)).items hv (.list vs)).2 with h | ⟨⟨_, h1⟩, ⟨_, h2⟩, _⟩
    · rw [h]
    · rw [h1, h2]
      exact ⟨fun h => (by cases h), fun h => (by cases h)⟩
  constructor
  · intro h
    obtain ⟨vs, _, h1, _⟩ := tupleEncode_raw (show tupleEncode (encsOf true ts) v = .ok b from h)
    exact ⟨vs, isSeqOf_iff.2 h1, (hsame vs (isSeqOf_iff.2 h1)).1 h⟩
  · rintro ⟨vs, h1, h⟩
    exact (hsame vs h1).2 h

/-- **C34, fixed-point types.**  Whatever is accepted as a `fixedMxN` or `ufixedMxN` takes `M / 8`
bytes. -/
theorem C34_fixed [Ext] {s : TypeStr} {t : Ty} {m n : Nat} (ht : t = .fixed m n ∨ t = .ufixed m n)
    (hs : Supported s t) {v : PyVal} {b : Bytes} (h : encodePacked [s] (.list [v]) = .ok b) :
    b.length = m / 8 := by
  rw [packed_one hs] at h
  have hv := supported_valid hs
  rcases ht with rfl | rfl
  · simp only [Ty.Valid] at hv
    have hg := sfixed_good (d := m / 8) hv.1 hv.2.2 (by have := hv.1; simp only [validBits] at this; omega)
    obtain ⟨b', h1, h2⟩ := hg.total v (hg.callVal v b h)
    rw [show (encOf true (.fixed m n)).call v = _ from h1] at h
    cases h; exact h2
  · simp only [Ty.Valid] at hv
    have hg := ufixed_good (d := m / 8) hv.1 hv.2.2 (by have := hv.1; simp only [validBits] at this; omega)
    obtain ⟨b', h1, h2⟩ := hg.total v (hg.callVal v b h)
    rw [show (encOf true (.ufixed m n)).call v = _ from h1] at h
    cases h; exact h2

/-! A concrete case: a nested array of tuples, and the off-grid argument of `C01_roundTrip_false`. -/

example : ∃ xs, @denoteAll Ex.ext Ex.tys Ex.args = some xs ∧
    [254, 97, 98, 99, 127, 1, 2, 3, 244] ++ List.replicate 31 0 ++ [7] = encPackedAll Ex.tys xs :=
  letI := Ex.ext
  C34_packed Ex.names (.list _) Ex.onGrid (args := .list Ex.args) (by decide +kernel)

example : @encodePacked Ex.ext Ex.types (.list Ex.args) = .ok (encPackedAll Ex.tys Ex.vals) :=
  letI := Ex.ext
  C34_complete Ex.names (.list _) Ex.denotes (by decide +kernel)

example : letI := Ex.ext
    ∃ bs, List.Forall₂ (fun (p : TypeStr × PyVal) c => encodePacked [p.1] (.list [p.2]) = .ok c)
      (Ex.types.zip Ex.args) bs ∧
      [254, 97, 98, 99, 127, 1, 2, 3, 244] ++ List.replicate 31 0 ++ [7] = bs.flatten :=
  letI := Ex.ext
  (C34_concat (.list _) (by decide +kernel)).2

example : letI := Ex.ext
    ∃ vs bs, IsSeqOf (.list [.dec (.fin (-5) (-2)), .int 1]) vs ∧ vs.length = 2 ∧
      List.Forall₂ (fun u c => encodePacked [t!"fixed8x1"] (.list [u]) = .ok c) vs bs ∧
      [0, 10] = bs.flatten :=
  letI := Ex.ext
  C34_sized (s := t!"fixed8x1[2]") (k := 2)
    ⟨.sized (s := t!"fixed8x1") (k := 2) (.fixed (m := 8) (n := 1) (by decide) (by decide) (by decide))
      (by decide) (by decide), by decide⟩
    ⟨.fixed (m := 8) (n := 1) (by decide) (by decide) (by decide), by decide⟩ (by decide +kernel)

example : letI := Ex.ext
    ∃ vs bs, IsSeqOf (.tuple [.int 1, .int 2]) vs ∧
      List.Forall₂ (fun u c => encodePacked [t!"uint16"] (.list [u]) = .ok c) vs bs ∧
      [0, 1, 0, 2] = bs.flatten :=
  letI := Ex.ext
  C34_dyn (s := t!"uint16[]") ⟨.dyn (s := t!"uint16") (.uint (n := 16) (by decide)), by decide⟩
    ⟨.uint (n := 16) (by decide), by decide⟩ (by decide +kernel)

example : letI := Ex.ext
    encodePacked [t!"(uint16,string)"] (.list [.tuple [.int 1, .str (ofChars t!"a")]]) = .ok [0, 1, 97] :=
  letI := Ex.ext
  (C34_tuple (types := [t!"uint16", t!"string"]) (ts := [.uint 16, .string])
    ⟨.tuple (s := t!"uint16,string") (.cons (s := t!"uint16") (s' := t!"string")
        (.uint (n := 16) (by decide)) (.one .string)), by decide⟩
    (.cons ⟨.uint (n := 16) (by decide), by decide⟩ (.cons ⟨.string, by decide⟩ .nil))).2
    ⟨_, .tuple _, by decide +kernel⟩

example : letI := Ex.ext
    ∃ b, encodePacked [t!"fixed16x1"] (.list [.dec (.fin (-5) (-2))]) = .ok b ∧ b.length = 16 / 8 :=
  letI := Ex.ext
  ⟨[255, 0], by decide +kernel, C34_fixed (n := 1) (.inl rfl)
    (s := t!"fixed16x1") ⟨.fixed (m := 16) (n := 1) (by decide) (by decide) (by decide), by decide⟩
    (v := .dec (.fin (-5) (-2))) (by decide +kernel)⟩

end EthAbi
