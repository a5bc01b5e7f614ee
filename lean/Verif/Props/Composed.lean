import Verif.Lemmas.Composed
import Verif.Props.Custom

/-!
# C89: types built from registered encoders are laid out as the ABI prescribes

`h` is an arbitrary history and `(Plain.run [] h)[r]? = some g` says that registry `r` exists and has
the registrations `g` after it.
-/
namespace EthAbi
open Spec

/-- Arguments that have an encoding are accepted, and `encode` returns the layout of their encodings,
for any nesting of arrays and tuples around encoders that a user registered. -/
theorem C89_layout [Ext] (h : History) {r : Nat} {g : Registry} (hg : (Plain.run [] h)[r]? = some g)
    {types : List TypeStr} {args : PyVal} {vs : List PyVal} {xs : List Elem} (ha : IsListOf args vs)
    (hx : ArgsAs g types vs xs) (hl : (layout xs).length < 2 ^ 256) :
    ∃ n, ∀ f, n ≤ f → ((World.empty.run h).encode f r types args).1 = .ok (layout xs) :=
  C40_arguments_partial h hg ha
    (argsAs_to hx fun _ hm => Nat.lt_of_le_of_lt (layout_mem hm) hl) hl

/-- And no other arguments are accepted for type strings built from registered encoders: whatever
`encode` returns is the layout of encodings of the arguments. -/
theorem C89_only [Ext] (h : History) {r : Nat} {g : Registry} (hg : (Plain.run [] h)[r]? = some g)
    {types : List TypeStr} (hB : ∀ s ∈ types, BuiltFrom g s) {args : PyVal} {fuel : Nat} {b : Bytes}
    (he : ((World.empty.run h).encode fuel r types args).1 = .ok b) :
    ∃ vs xs, IsListOf args vs ∧ ArgsAs g types vs xs ∧ b = layout xs := by
  have h1 := (C28_encode h hg fuel types args).1 (by rw [he]; simp)
  rw [he] at h1
  obtain ⟨n, h1⟩ := h1
  exact builtFrom_encodeAt hB (h1 n (Nat.le_refl n))

/-- The encodings are determined by the type strings and the values. -/
theorem C89_unique [Ext] {g : Registry} {types : List TypeStr} {vs : List PyVal} {xs xs' : List Elem}
    (hx : ArgsAs g types vs xs) (hx' : ArgsAs g types vs xs') (hl : (layout xs).length < 2 ^ 256)
    (hl' : (layout xs').length < 2 ^ 256) : xs = xs' :=
  encodesTo_unique (argsAs_to hx fun _ hm => Nat.lt_of_le_of_lt (layout_mem hm) hl)
    (argsAs_to hx' fun _ hm => Nat.lt_of_le_of_lt (layout_mem hm) hl')

/-- In a registry made from the packed one, arrays and tuples keep their registrations as long as no registration
matches their type strings. -/
theorem C89_packed_compound [Ext] {g : Registry} {s : TypeStr} (hg : PackedFor g s) :
    (∀ t, parse s = .ok t → t.isArray = true → PackedArray g s) ∧
    (∀ cs, parse s = .ok (.tuple cs []) → OnlyMatch g.encoders s (.cls (tuplePlan mkTuple))) := by
  obtain ⟨xe, h1, h2⟩ := hg
  exact ⟨fun _ hp ha => onlyMatch_extend (served_array (encKit true) 100 hp ha) h1 h2,
    fun _ hp => onlyMatch_extend (served_tuple (encKit true) 100 hp) h1 h2⟩

/-- If no argument counts as dynamic, the result is the concatenation of the encodings of the arguments. -/
theorem C89_concat [Ext] (h : History) {r : Nat} {g : Registry} (hg : (Plain.run [] h)[r]? = some g)
    {types : List TypeStr} {args : PyVal} {vs : List PyVal} {xs : List Elem} (ha : IsListOf args vs)
    (hx : ArgsAs g types vs xs) (hs : ∀ x ∈ xs, x.1 = false) (hl : ((xs.map (·.2)).flatten).length < 2 ^ 256) :
    ∃ n, ∀ f, n ≤ f → ((World.empty.run h).encode f r types args).1 = .ok (xs.map (·.2)).flatten := by
  have e := layout_static hs
  rw [← e] at hl ⊢
  exact C89_layout h hg ha hx hl

namespace Ex

/-- The type strings `(null,string)[]`, `null[2]` and `bytes`, in the registry with `null`. -/
theorem null_from : letI := ext
    ∀ s ∈ [t!"(null,string)[]", t!"null[2]", t!"bytes"], BuiltFrom (nullRegistry encodeNull decodeNull) s := by
  let := ext
  have hdef := null_default encodeNull decodeNull
  have hown : EncoderIs (nullRegistry encodeNull decodeNull) t!"null" encodeNull := by
    refine ⟨1, fun f hf => ?_⟩
    obtain ⟨f, rfl⟩ : ∃ f', f = f' + 1 := ⟨f - 1, by omega⟩
    show getEncoderFuel (nullRegistry encodeNull decodeNull).encoders (f + 1) t!"null" = _
    rw [getEncoderFuel, (getRegistration_ok _ _ _).2 ((find_iff _ _ _).2 (null_only _ _).1)]
  have hn : BuiltFrom (nullRegistry encodeNull decodeNull) t!"null" :=
    .own null_wellformed (.inl ⟨_, (null_only _ _).1⟩) hown
  have hstr : BuiltFrom (nullRegistry encodeNull decodeNull) t!"string" :=
    .own ⟨_, rfl, by decide +kernel, rfl⟩ (.inr ⟨_, _, rfl⟩)
      (default_basic (hdef t!"string" (by decide)) (sub := .none) rfl (t := .string) ⟨.string, by decide⟩).1
  have hbytes : BuiltFrom (nullRegistry encodeNull decodeNull) t!"bytes" :=
    .own ⟨_, rfl, by decide +kernel, rfl⟩ (.inr ⟨_, _, rfl⟩)
      (default_basic (hdef t!"bytes" (by decide)) (sub := .none) rfl (t := .bytes) ⟨.bytes, by decide⟩).1
  have htup : BuiltFrom (nullRegistry encodeNull decodeNull) t!"(null,string)" :=
    .tuple (.cons hn (.one hstr)) ((C47_compound (hdef t!"(null,string)" (by decide))).2 _ rfl).1
  intro s hs
  simp only [List.mem_cons, List.not_mem_nil, or_false] at hs
  rcases hs with rfl | rfl | rfl
  · exact .dynamic htup ((C47_compound (hdef t!"(null,string)[]" (by decide))).1 _ rfl rfl).1
  · exact .sized (k := 2) hn hown (by simp [encodeNull]) (by decide) (by decide)
      ((C47_compound (hdef t!"null[2]" (by decide))).1 _ rfl rfl).1
  · exact hbytes

/-- Hence, by `C89_only`, the arguments of the example in `Props/Custom.lean` have encodings in the
sense of the specification. -/
example : letI := ext
    ∃ xs, ArgsAs (nullRegistry encodeNull decodeNull) [t!"(null,string)[]", t!"null[2]", t!"bytes"] nullArgs xs ∧
      (layout xs).length = 640 := by
  let := ext
  have hlen : (match ((World.empty.run (withNull encodeNull decodeNull)).encode 9 2
      [t!"(null,string)[]", t!"null[2]", t!"bytes"] (.list nullArgs)).1 with
        | .ok b => decide (b.length = 640) | .error _ => false) = true := by decide +kernel
  split at hlen
  · next b hb =>
    obtain ⟨vs, xs, h1, h2, h3⟩ := C89_only (withNull encodeNull decodeNull) (withNull_regs _ _) null_from hb
    cases h1
    exact ⟨xs, h2, by rw [← h3]; exact of_decide_eq_true hlen⟩
  · cases hlen

/-- And one of them written out: two `null`s of 64 zero bytes each. -/
example : letI := ext
    EncodesAs (nullRegistry encodeNull decodeNull) false t!"null[2]" (.tuple [.none, .none])
      (false, layout [(false, List.replicate 64 0), (false, List.replicate 64 0)]) := by
  let := ext
  have hown : EncoderIs (nullRegistry encodeNull decodeNull) t!"null" encodeNull := by
    refine ⟨1, fun f hf => ?_⟩
    obtain ⟨f, rfl⟩ : ∃ f', f = f' + 1 := ⟨f - 1, by omega⟩
    show getEncoderFuel (nullRegistry encodeNull decodeNull).encoders (f + 1) t!"null" = _
    rw [getEncoderFuel, (getRegistration_ok _ _ _).2 ((find_iff _ _ _).2 (null_only _ _).1)]
  have hn : EncodesAs (nullRegistry encodeNull decodeNull) true t!"null" .none
      (encodeNull.dyn, List.replicate 64 0) :=
    .own null_wellformed (.inl ⟨_, (null_only _ _).1⟩) hown (.inl rfl) rfl
  exact .sized (k := 2) (vs := [.none, .none]) null_wellformed hown rfl (by decide) (by decide)
    ((C47_compound (null_default _ _ t!"null[2]" (by decide))).1 _ rfl rfl).1 (.tuple _) rfl
    (.cons hn (.cons hn .nil))

/-- `import eth_abi`, a copy of the registry for packed encodings, and the type `null` registered in it. -/
def withPackedNull [Ext] : History := importCalls.map (fun op => (0, op)) ++
  [(9, .copy 1), (9, .registerEncoder 2 (.str t!"null" 50) (.obj encodeNull) none)]

/-- The registrations of the copy. -/
def packedNullRegistry [Ext] : Registry :=
  ⟨⟨packedRegistry.encoders.values ++ [(⟨50, .equals t!"null"⟩, .obj encodeNull)],
    packedRegistry.encoders.labels ++ [(t!"null", ⟨50, .equals t!"null"⟩)]⟩, Mapping.empty⟩

example : letI := ext; (Plain.run [] withPackedNull)[2]? = some packedNullRegistry := by
  let := ext
  rfl

/-- The type strings `null` and `(null,null)[][2]` in this registry. -/
theorem packedNull_from : letI := ext
    ∀ s ∈ [t!"null", t!"(null,null)[][2]"], BuiltFrom packedNullRegistry s := by
  let := ext
  have hfor : ∀ s, s ≠ t!"null" → PackedFor packedNullRegistry s := by
    intro s hs
    refine ⟨_, rfl, fun q hq => ?_⟩
    rw [List.mem_singleton.1 hq]
    simp only [Pred.matches]
    rw [beq_eq_false_iff_ne.2 (Ne.symm hs)]
  have honly : OnlyMatch packedNullRegistry.encoders t!"null" (.obj encodeNull) := by
    have hvs : (packedRegistry.encoders.values.all fun q => decide (q.1.matches t!"null" = .ok false)) = true := by
      decide +kernel
    exact ⟨packedRegistry.encoders.values, _, [], rfl, rfl, by
      simpa using fun q hq => of_decide_eq_true (List.all_eq_true.1 hvs q hq)⟩
  have hn : BuiltFrom packedNullRegistry t!"null" := by
    refine .own null_wellformed (.inl ⟨_, honly⟩) (e := encodeNull) ⟨1, fun f hf => ?_⟩
    obtain ⟨f, rfl⟩ : ∃ f', f = f' + 1 := ⟨f - 1, by omega⟩
    show getEncoderFuel packedNullRegistry.encoders (f + 1) t!"null" = _
    rw [getEncoderFuel, (getRegistration_ok _ _ _).2 ((find_iff _ _ _).2 honly)]
  intro s hs
  simp only [List.mem_cons, List.not_mem_nil, or_false] at hs
  rcases hs with rfl | rfl
  · exact hn
  · have ht : BuiltFrom packedNullRegistry t!"(null,null)" :=
      .tuple (.cons hn (.one hn)) ((C89_packed_compound (hfor t!"(null,null)" (by decide))).2 _ rfl)
    have ha : BuiltFrom packedNullRegistry t!"(null,null)[]" :=
      .packedDynamic ht ((C89_packed_compound (hfor t!"(null,null)[]" (by decide))).1 _ rfl rfl)
    exact .packedSized (k := 2) ha (by decide) (by decide)
      ((C89_packed_compound (hfor t!"(null,null)[][2]" (by decide))).1 _ rfl rfl)

example : letI := ext
    ((World.empty.run withPackedNull).encode 9 2 [t!"null", t!"(null,null)[][2]"]
      (.list [.none, .list [.list [.tuple [.none, .none]], .list []]])).1 = .ok (List.replicate 192 0) := by
  let := ext
  decide +kernel

end Ex

end EthAbi
