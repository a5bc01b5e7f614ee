import Verif.Lemmas.Shadow
import Verif.Props.Examples

/-!
# C01, C02, C11, C12, C14, C15, C20, C43: encoding and decoding are inverse

In every statement `Fits b` says that `b` is not longer than a Python `bytes` object can be.
-/
namespace EthAbi
open Spec

/-! ## C01 -/

/-- **C01, part.**  If `encode` accepts the arguments, `decode` gives back each of them in canonical
form.  Missing: arguments for fixed-point types that are not multiples of `10^-N`; for those the
claim is false, see `C01_roundTrip_false`. -/
theorem C01_roundTrip_partial [Ext] {types : List TypeStr} {ts : List Ty} (hT : Names types ts)
    {args : PyVal} {vs : List PyVal} (ha : IsListOf args vs) (hg : OnGridAll ts vs)
    {b : Bytes} (hb : Fits b) (h : encode types args = .ok b) (strict : Bool) :
    ∃ xs, denoteAll ts vs = some xs ∧ decode types (.bytes b) strict = .ok (.tuple (toPyAll ts xs)) := by
  obtain ⟨xs, hd, rfl⟩ := encode_spec hT ha h hg
  refine ⟨xs, hd, (decode_reads hT (.bytes _) hb).2 ⟨xs, ?_, rfl⟩⟩
  exact readsArgs_enc codeHead_ok (supportedAll_valid hT) strict hb (denoteAll_of hd)
    (List.prefix_refl _)

/-- The round trip fails: `Decimal('-0.05')` is accepted as a `fixed8x1` and its encoding is refused
by `decode`. -/
theorem C01_roundTrip_false [Ext] : ¬ ∀ (types : List TypeStr) (args : PyVal) (b : Bytes),
    encode types args = .ok b → ∃ v, decode types (.bytes b) = .ok v := by
  intro h
  have hT : Names [t!"fixed8x1"] [.fixed 8 1] :=
    .cons ⟨.fixed (m := 8) (n := 1) (by decide) (by decide) (by decide), by decide⟩ .nil
  have h1 : encode [t!"fixed8x1"] (.list [.dec (.fin (-5) (-2))]) =
      .ok (List.replicate 31 0xff ++ [0]) := by
    have := encode_eq false hT (args := .list [.dec (.fin (-5) (-2))]) rfl
    exact this.trans (sfixed_one (m := 8) (n := 1) rfl (by decide +kernel) (by decide +kernel))
  obtain ⟨v, hv⟩ := h _ _ _ h1
  have h2 := decode_eq hT (data := .bytes (List.replicate 31 0xff ++ [0])) (d := List.replicate 31 0xff ++ [0]) rfl (by decide) true
  rw [hv] at h2
  have h3 : posTop true [.fixed 8 1] (List.replicate 31 0xff ++ [0]) = .error .nonEmptyPaddingBytes := by
    rfl
  rw [h3] at h2
  cases h2

/-- The round trip can also return another number: `Decimal('-0.05')` is accepted as a `fixed16x1`,
and `decode` returns `Decimal('-25.6')`. -/
theorem C01_other_value_false [Ext] :
    ∃ b, encode [t!"fixed16x1"] (.list [.dec (.fin (-5) (-2))]) = .ok b ∧
      decode [t!"fixed16x1"] (.bytes b) = .ok (.tuple [.dec (.fin (-256) (-1))]) := by
  have hT : Names [t!"fixed16x1"] [.fixed 16 1] :=
    .cons ⟨.fixed (m := 16) (n := 1) (by decide) (by decide) (by decide), by decide⟩ .nil
  refine ⟨List.replicate 31 0xff ++ [0], ?_, ?_⟩
  · have := encode_eq false hT (args := .list [.dec (.fin (-5) (-2))]) rfl
    exact this.trans (sfixed_one (m := 16) (n := 1) rfl (by decide +kernel) (by decide +kernel))
  · exact (decode_eq hT (data := .bytes (List.replicate 31 0xff ++ [0])) rfl (by decide) true).trans
      (by decide +kernel)

example : ∃ xs, @denoteAll Ex.ext Ex.tys Ex.args = some xs ∧
    @decode Ex.ext Ex.types (.bytes (encodeArgs Ex.tys Ex.vals)) true =
      .ok (.tuple (toPyAll Ex.tys xs)) :=
  letI := Ex.ext
  C01_roundTrip_partial Ex.names (.list _) Ex.onGrid Ex.fits Ex.encodes true

/-! ## C02 -/

/-- **C02, part.**  The bytes are those of the ABI specification for the values that the arguments
denote.  Missing as in C01: off-grid fixed-point arguments are accepted although they denote no
value of the type. -/
theorem C02_conformance_partial [Ext] {types : List TypeStr} {ts : List Ty} (hT : Names types ts)
    {args : PyVal} {vs : List PyVal} (ha : IsListOf args vs) (hg : OnGridAll ts vs) {b : Bytes}
    (h : encode types args = .ok b) :
    ∃ xs, denoteAll ts vs = some xs ∧ b = encodeArgs ts xs := encode_spec hT ha h hg

/-- **C02, converse.**  Arguments that denote values of the types are accepted, and encoded as the
ABI specification says. -/
theorem C02_conformance_complete [Ext] {types : List TypeStr} {ts : List Ty} (hT : Names types ts)
    {args : PyVal} {vs : List PyVal} (ha : IsListOf args vs) {xs : List Val}
    (hd : denoteAll ts vs = some xs) (hl : Fits (encodeArgs ts xs)) :
    encode types args = .ok (encodeArgs ts xs) := encode_of hT ha hd (fits_lt hl)

/-- An argument that denotes no value of its type is accepted. -/
theorem C02_conformance_false [Ext] : ¬ ∀ (types : List TypeStr) (ts : List Ty), Names types ts →
    ∀ vs b, encode types (.list vs) = .ok b → ∃ xs, denoteAll ts vs = some xs := by
  intro h
  have hT : Names [t!"fixed8x1"] [.fixed 8 1] :=
    .cons ⟨.fixed (m := 8) (n := 1) (by decide) (by decide) (by decide), by decide⟩ .nil
  have h1 : encode [t!"fixed8x1"] (.list [.dec (.fin (-5) (-2))]) =
      .ok (List.replicate 31 0xff ++ [0]) := by
    have := encode_eq false hT (args := .list [.dec (.fin (-5) (-2))]) rfl
    exact this.trans (sfixed_one (m := 8) (n := 1) rfl (by decide +kernel) (by decide +kernel))
  obtain ⟨xs, hx⟩ := h _ _ hT _ _ h1
  have h2 : denoteAll [.fixed 8 1] [.dec (.fin (-5) (-2))] = none := rfl
  rw [h2] at hx
  cases hx

example : @encode Ex.ext Ex.types (.list Ex.args) = .ok (encodeArgs Ex.tys Ex.vals) :=
  letI := Ex.ext
  C02_conformance_complete Ex.names (.list _) Ex.denotes Ex.fits

/-! ## C11 -/

/-- **C11.**  What follows an encoding does not matter, in fact what follows any data that decode. -/
theorem C11_trailing [Ext] {types : List TypeStr} {d junk : Bytes} (hl : Fits (d ++ junk)) {v : PyVal}
    (h : decode types (.bytes d) = .ok v) : decode types (.bytes (d ++ junk)) = .ok v := by
  have hd : Fits d := by simp only [Fits, List.length_append] at hl ⊢; omega
  obtain ⟨ts, hT⟩ := names_of_decode (.bytes _) hd h
  obtain ⟨xs, h1, rfl⟩ := (decode_reads hT (.bytes _) hd).1 h
  exact (decode_reads hT (.bytes _) hl).2
    ⟨xs, readsAll_mono (fun t _ p x => reads_mono t d junk p x) h1, rfl⟩

example : @decode Ex.ext Ex.types (.bytes (encodeArgs Ex.tys Ex.vals ++ [1, 2])) true = .ok (.tuple
    [.tuple [.tuple [.int (-2), .str (ofChars t!"abc")], .tuple [.int 127, .str []]],
     .bytes [1, 2, 3], .dec (.fin (-12) (-1)), .int 7]) :=
  letI := Ex.ext
  C11_trailing (by decide +kernel) Ex.decodes

/-! ## C12 -/

/-- **C12.**  A decode that succeeds with `strict=True` gives the same with `strict=False`. -/
theorem C12_relax [Ext] {types : List TypeStr} {data : PyVal} {d : Bytes} (hd : IsBytes data d)
    (hl : Fits d) {v : PyVal} (h : decode types data true = .ok v) :
    decode types data false = .ok v := by
  obtain ⟨ts, hT⟩ := names_of_decode hd hl h
  obtain ⟨xs, h1, rfl⟩ := (decode_reads hT hd hl).1 h
  exact (decode_reads hT hd hl).2 ⟨xs, readsAll_lax hl h1, rfl⟩

example : @decode Ex.ext Ex.types (.bytes (encodeArgs Ex.tys Ex.vals)) false = .ok (.tuple
    [.tuple [.tuple [.int (-2), .str (ofChars t!"abc")], .tuple [.int 127, .str []]],
     .bytes [1, 2, 3], .dec (.fin (-12) (-1)), .int 7]) :=
  letI := Ex.ext
  C12_relax (.bytes _) Ex.fits Ex.decodes

/-! ## C14 -/

/-- **C14.**  For static types, decoding and encoding again gives the first bytes of the data. -/
theorem C14_static_canonical [Ext] {types : List TypeStr} {ts : List Ty} (hT : Names types ts)
    (hs : ∀ t ∈ ts, t.dynamic = false) {data : PyVal} {d : Bytes} (hd : IsBytes data d) (hl : Fits d)
    {strict : Bool} {v : PyVal} (h : decode types data strict = .ok v) :
    ∃ b, encode types v = .ok b ∧ b <+: d := by
  obtain ⟨xs, h1, rfl⟩ := (decode_reads hT hd hl).1 h
  have hv := supportedAll_valid hT
  have hp := readsAll_static hv (fun t ht _ p x => reads_static t (hv t ht) (hs t ht) strict d p x)
    (by rw [anyDynamic_eq]; simpa using hs) h1
  simp only [At, List.drop_zero] at hp
  refine ⟨_, encode_of hT (.tuple _) (denote_toPyAll (fun t _ => denote_toPy t) (readsArgs_of h1)) ?_, hp⟩
  exact lt_of_le_of_lt hp.length_le (fits_lt hl)

/-- **C14, consequence.**  Data of static types with different heads never decode to the same. -/
theorem C14_static_injective [Ext] {types : List TypeStr} {ts : List Ty} (hT : Names types ts)
    (hs : ∀ t ∈ ts, t.dynamic = false) {d d' : Bytes} (hl : Fits d) (hl' : Fits d') {strict : Bool}
    {v : PyVal} (h : decode types (.bytes d) strict = .ok v)
    (h' : decode types (.bytes d') strict = .ok v) :
    d.take (headBytes ts) = d'.take (headBytes ts) := by
  obtain ⟨b, hb, hp⟩ := C14_static_canonical hT hs (.bytes d) hl h
  obtain ⟨b', hb', hp'⟩ := C14_static_canonical hT hs (.bytes d') hl' h'
  rw [hb] at hb'
  cases hb'
  obtain ⟨xs, h1, rfl⟩ := (decode_reads hT (.bytes d) hl).1 h
  have hv := supportedAll_valid hT
  have hx := readsArgs_of h1
  have hden := denote_toPyAll (fun t _ => denote_toPy t) hx
  have hb2 : b = encodeArgs ts xs := by
    have := (decode_reads hT (.bytes d) hl).1 h
    have hp2 := readsAll_static hv
      (fun t ht _ p x => reads_static t (hv t ht) (hs t ht) strict d p x)
      (by rw [anyDynamic_eq]; simpa using hs) h1
    simp only [At, List.drop_zero] at hp2
    have := encode_of hT (.tuple _) hden (lt_of_le_of_lt hp2.length_le (fits_lt hl))
    rw [hb] at this
    injection this
  have hlen : b.length = headBytes ts := by
    have hst : ∀ a ∈ encAll ts xs, a.1 = false := by
      clear * - hs
      induction ts generalizing xs with
      | nil => simp [encAll]
      | cons t ts ih =>
        cases xs with
        | nil => simp [encAll]
        | cons x xs =>
          simp only [encAll, List.mem_cons]
          rintro a (rfl | ha)
          · exact hs t (by simp)
          · exact ih (fun t ht => hs t (by simp [ht])) xs a ha
    have htl : tails (encAll ts xs) = [] := by
      generalize encAll ts xs = es at hst
      induction es with
      | nil => rfl
      | cons a es ih =>
        obtain ⟨dy, c⟩ := a
        have : dy = false := hst (dy, c) (by simp)
        simp [tails, this, ih (fun a ha => hst a (by simp [ha]))]
    rw [hb2, encodeArgs, layout_length, headSize_eq hv hx, htl]
    rfl
  rw [← hlen, ← List.prefix_iff_eq_take.1 hp, ← List.prefix_iff_eq_take.1 hp']

example : (∃ b, @encode Ex.ext [t!"(bool,int8)[1]"] (.tuple [.tuple [.tuple [.bool true, .int (-1)]]]) = .ok b ∧
    b <+: wordOf 1 ++ wordOf (-1) ++ [9]) :=
  letI := Ex.ext
  C14_static_canonical (types := [t!"(bool,int8)[1]"]) (ts := [.sized 1 (.tuple [.bool, .int 8])])
    (.cons ⟨.sized (s := t!"(bool,int8)") (k := 1) (.tuple (s := t!"bool,int8")
      (.cons (s := t!"bool") (s' := t!"int8") .bool (.one (.int (n := 8) (by decide)))))
      (by decide) (by decide), by decide⟩ .nil)
    (by decide) (.bytes _) (by decide) (strict := true) (by decide +kernel)

/-! ## C15 -/

/-- **C15.**  Whatever `decode` returns is accepted by `encode` (unless it is so large that no
machine can hold the encoding), and decodes to itself again. -/
theorem C15_reencode [Ext] {types : List TypeStr} {data : PyVal} {d : Bytes} (hd : IsBytes data d)
    (hl : Fits d) {strict : Bool} {v : PyVal} (h : decode types data strict = .ok v)
    (hw : 128 * weight v < 2 ^ 256) :
    ∃ b, encode types v = .ok b ∧ (Fits b → decode types (.bytes b) = .ok v) := by
  obtain ⟨ts, hT⟩ := names_of_decode hd hl h
  obtain ⟨xs, h1, rfl⟩ := (decode_reads hT hd hl).1 h
  have hx := readsArgs_of h1
  have hden := denote_toPyAll (fun t _ => denote_toPy t) hx
  have hv := supportedAll_valid hT
  have hgood := top_good false hv
  have hdt : denote (.tuple ts) (.tuple (toPyAll ts xs)) = some (.seq xs) :=
    denote_tuple.2 ⟨_, _, rfl, hden, rfl⟩
  have henc : encode types (.tuple (toPyAll ts xs)) =
      (mkTuple (encsOf false ts)).call (.tuple (toPyAll ts xs)) := encode_eq false hT rfl
  have hbnd : ∃ b, encode types (.tuple (toPyAll ts xs)) = .ok b := by
    rw [henc]
    rcases hgood.total _ (hgood.valOk _ _ hdt) with ⟨b, hb, _⟩ | ⟨_, hn⟩ | ⟨_, hn⟩
    · exact ⟨b, hb⟩
    · exact absurd (toPy_noSurrogates (.tuple ts) (.seq xs) hx) hn
    · omega
  obtain ⟨b, hb⟩ := hbnd
  refine ⟨b, hb, fun hf => ?_⟩
  obtain ⟨ys, h2, rfl⟩ := encode_spec hT (.tuple _) hb (toPy_onGridAll hx)
  rw [hden] at h2
  cases h2
  refine (decode_reads hT (.bytes _) hf).2 ⟨xs, ?_, rfl⟩
  exact readsArgs_enc codeHead_ok hv true hf hx (List.prefix_refl _)

/-! ## C20 -/

/-- **C20.**  No proper prefix of an encoding decodes strictly. -/
theorem C20_no_prefix [Ext] {types : List TypeStr} {args : PyVal} {d cut : Bytes}
    (hb : Fits (d ++ cut)) (h : encode types args = .ok (d ++ cut)) (hcut : cut ≠ []) (v : PyVal) :
    decode types (.bytes d) ≠ .ok v := by
  intro hdec
  have hdl : Fits d := by simp only [Fits, List.length_append] at hb ⊢; omega
  obtain ⟨ts, hT⟩ := names_of_decode (.bytes _) hdl hdec
  obtain ⟨xs, hxs, hbe⟩ := shadow_encode hT h
  obtain ⟨zs, h0, rfl⟩ := (decode_reads hT (.bytes _) hdl).1 hdec
  have hv := shadows_valid (supportedAll_valid hT)
  obtain ⟨ys, h1⟩ := shadow_readsArgs (supportedAll_valid hT) h0
  have h2 : ReadsArgs codeHead true (shadows ts) (d ++ cut) ys :=
    readsAll_mono (fun t _ p x => reads_mono t d cut p x) h1
  have h3 : ReadsArgs codeHead true (shadows ts) (d ++ cut) xs :=
    readsArgs_enc codeHead_ok hv true hb hxs (by rw [hbe]; exact List.prefix_refl _)
  have hxy : xs = ys := by
    have e1 := (posTop_iff hv true hb).2 h2
    have e2 := (posTop_iff hv true hb).2 h3
    rw [e1] at e2
    injection e2 with e2
    exact e2.symm
  subst hxy
  by_cases hne : shadows ts = []
  · rw [hne] at hxs hbe
    cases xs with
    | nil =>
      have : d ++ cut = [] := hbe
      exact hcut (List.append_eq_nil_iff.1 this).2
    | cons x xs => exact hxs.elim
  · have := readsArgs_within hv hne (fits_lt hb) h1 (by rw [← encodeArgs, ← hbe])
    rw [← encodeArgs, ← hbe, List.length_append] at this
    exact hcut (List.length_eq_zero_iff.1 (by omega))

example (v : PyVal) : @decode Ex.ext Ex.types (.bytes ((encodeArgs Ex.tys Ex.vals).take 383)) true ≠ .ok v :=
  letI := Ex.ext
  C20_no_prefix (args := .list Ex.args) (cut := (encodeArgs Ex.tys Ex.vals).drop 383)
    (by rw [List.take_append_drop]; exact Ex.fits) (by rw [List.take_append_drop]; exact Ex.encodes)
    (by decide +kernel) v

/-! ## C43 -/

/-- **C43, part.**  Two lists of arguments with the same encoding denote the same values.  Missing:
off-grid fixed-point arguments, see `C43_injective_false`. -/
theorem C43_injective_partial [Ext] {types : List TypeStr} {ts : List Ty} (hT : Names types ts)
    {args args' : PyVal} {vs vs' : List PyVal} (ha : IsListOf args vs) (ha' : IsListOf args' vs')
    (hg : OnGridAll ts vs) (hg' : OnGridAll ts vs') {b : Bytes} (hb : Fits b)
    (h : encode types args = .ok b) (h' : encode types args' = .ok b) :
    ∃ xs, denoteAll ts vs = some xs ∧ denoteAll ts vs' = some xs := by
  obtain ⟨xs, hd, he⟩ := encode_spec hT ha h hg
  obtain ⟨ys, hd', he'⟩ := encode_spec hT ha' h' hg'
  have hv := supportedAll_valid hT
  have e1 := (posTop_iff hv true hb).2 (readsArgs_enc codeHead_ok hv true hb (denoteAll_of hd)
    (by rw [he]; exact List.prefix_refl _))
  have e2 := (posTop_iff hv true hb).2 (readsArgs_enc codeHead_ok hv true hb (denoteAll_of hd')
    (by rw [he']; exact List.prefix_refl _))
  rw [e1] at e2
  injection e2 with e2
  subst e2
  exact ⟨xs, hd, hd'⟩

/-- `Decimal('-1.25')` and `Decimal('-1.2')` have the same encoding as `fixed8x1`. -/
theorem C43_injective_false [Ext] :
    encode [t!"fixed8x1"] (.list [.dec (.fin (-125) (-2))]) = .ok (wordOf (-12)) ∧
    encode [t!"fixed8x1"] (.list [.dec (.fin (-12) (-1))]) = .ok (wordOf (-12)) := by
  have hT : Names [t!"fixed8x1"] [.fixed 8 1] :=
    .cons ⟨.fixed (m := 8) (n := 1) (by decide) (by decide) (by decide), by decide⟩ .nil
  constructor
  · have := encode_eq false hT (args := .list [.dec (.fin (-125) (-2))]) rfl
    exact this.trans (sfixed_one (m := 8) (n := 1) rfl (by decide +kernel) (by decide +kernel))
  · have := encode_eq false hT (args := .list [.dec (.fin (-12) (-1))]) rfl
    exact this.trans (sfixed_one (m := 8) (n := 1) rfl (by decide +kernel) (by decide +kernel))

end EthAbi
