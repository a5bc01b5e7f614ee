import Verif.Lemmas.BuiltIn
import Verif.Lemmas.Callable
import Verif.Props.Registrations

/-!
# C40, C47: coders that users register, alone and inside tuples and arrays

As in `Props/Caching.lean`, `h` is an arbitrary history and `(Plain.run [] h)[r]? = some g` says that
registry `r` exists and has the registrations `g` after it.
-/
namespace EthAbi
open Spec

/-! ## C47: registered coders compose -/

/-- Coders that belong together, in any nesting of tuples and arrays, at any time: what `encode`
accepts comes back from `decode`.  The two calls may be made on different registries and at different
times, as long as the registrations are the same. -/
theorem C47_roundTrip [Ext] (h h' : History) {r r' : Nat} {g : Registry}
    (hg : (Plain.run [] h)[r]? = some g) (hg' : (Plain.run [] h')[r']? = some g)
    {types : List TypeStr} {Rs : List (PyVal → PyVal → Prop)} (hB : BuiltList g types Rs)
    {args : PyVal} {vs vs' : List PyVal} (ha : IsListOf args vs) (hR : Each Rs vs vs')
    {fuel : Nat} {b : Bytes} (hb : Fits b)
    (he : ((World.empty.run h).encode fuel r types args).1 = .ok b) (strict : Bool) :
    ∃ n, ∀ f, n ≤ f →
      ((World.empty.run h').decode f r' types (.bytes b) strict).1 = .ok (.tuple vs') := by
  have h1 := (C28_encode h hg fuel types args).1 (by rw [he]; simp)
  rw [he] at h1
  obtain ⟨n, hn⟩ := builtList_roundTrip hB ha hR hb strict h1
  refine ⟨n, fun f hf => ?_⟩
  obtain ⟨fl, _, h2⟩ := C28_decode h' hg' f types (.bytes b) strict
  rw [h2 (by rw [hn f hf fl]; simp), hn f hf fl]

/-- The parts of `Built`, 1: a type string that is served by two registered objects or callables. -/
theorem C47_registered [Ext] {g : Registry} {s : TypeStr} (hs : Wellformed s) {e : Encoder} {d : Decoder}
    (he : OnlyMatch g.encoders s (.obj e)) (hd : OnlyMatch g.decoders s (.obj d)) {attr : Bool}
    (hattr : attr = true → e.isDynamic ≠ none ∧ d.isDynamic ≠ none) {R : PyVal → PyVal → Prop}
    (hR : ReadsBack e d R) : Built g attr s R := by
  refine .leaf (e := e) (d := d.setStrict true) hs ⟨⟨1, fun f hf => ?_⟩, ⟨1, fun f hf => ?_⟩⟩ (fun h => ?_)
    (readsBack_setStrict hR true)
  · obtain ⟨f, rfl⟩ : ∃ f', f = f' + 1 := ⟨f - 1, by omega⟩
    show getEncoderFuel g.encoders (f + 1) s = _
    rw [getEncoderFuel, (getRegistration_ok _ _ _).2 ((find_iff _ _ _).2 he)]
  · obtain ⟨f, rfl⟩ : ∃ f', f = f' + 1 := ⟨f - 1, by omega⟩
    show getDecoderFuel g.decoders (f + 1) s true = _
    rw [getDecoderFuel, (getRegistration_ok _ _ _).2 ((find_iff _ _ _).2 hd)]
  · obtain ⟨h1, h2⟩ := hattr h
    refine ⟨h1, ?_⟩
    unfold Decoder.setStrict
    split
    · split <;> exact h2
    · exact h2

/-- The parts of `Built`, 2: the elementary types of the default registry, after other registrations
were added to it.  The values that come back are the canonical ones of the arguments. -/
theorem C47_builtin [Ext] {g : Registry} {s : TypeStr} (hg : DefaultFor g s) {t : Ty} (ht : Supported s t)
    {base : List Char} {sub : Sub} (hp : parse s = .ok (.basic base sub [])) (hs : Wellformed s) :
    Built g true s (fun v v' => ∃ x, denote t v = some x ∧ v' = toPy t x) :=
  .leaf hs (default_basic hg hp ht)
    (fun _ => ⟨by rw [encOf_isDynamic]; simp, by rw [(decOf_good t).isDyn]; simp⟩)
    (readsBack_builtin (supported_valid ht))

/-- The parts of `Built`, 3: arrays and tuples keep their default registrations as long as no
registration matches their type strings. -/
theorem C47_compound [Ext] {g : Registry} {s : TypeStr} (hg : DefaultFor g s) :
    (∀ t, parse s = .ok t → t.isArray = true → ServedAsArray g s) ∧
    (∀ cs, parse s = .ok (.tuple cs []) → ServedAsTuple g s) :=
  ⟨fun _ hp ha => default_array hg hp ha, fun _ hp => default_tuple hg hp⟩

namespace Ex

/-- The encoder of /repo/docs/registry.rst, `EncodeNull` with `word_width = 2`. -/
def encodeNull : Encoder where
  isDynamic := some false
  validate := some fun v => if v = .none then .ok () else .error .encodingTypeError
  call v := if v = .none then .ok (List.replicate 64 0) else .error .encodingTypeError

/-- The decoder of /repo/docs/registry.rst, `DecodeNull` with `word_width = 2`. -/
def decodeNull : Decoder where
  isDynamic := some false
  isHeadTail := false
  arraySize := none
  strict := .shared 0
  run _ _ st := do
    let (b, st) ← st.read 64
    if b ≠ List.replicate 64 0 then throw .insufficientDataBytes
    return (.none, st)

theorem null_readsBack : ReadsBack encodeNull decodeNull fun _ v' => v' = .none := by
  have hcall : ∀ v b, encodeNull.call v = .ok b → b = List.replicate 64 0 := by
    intro v b hb
    simp only [encodeNull] at hb
    split at hb
    · injection hb with hb; exact hb.symm
    · cases hb
  refine ⟨rfl, rfl, ?_, ?_⟩
  · intro v v' b _ hb
    rw [hcall v b hb]
    exact ⟨by decide, fun _ => ⟨by decide, by decide⟩⟩
  · rintro v v' b rfl hb fl strict st hl hat _
    have hlen := at_length hat (by rw [hcall v b hb]; decide)
    have h64 : b.length = 64 := by rw [hcall v b hb]; decide
    have hread : st.read 64 = .ok (b, { st with pos := st.pos + 64 }) := by
      have := at_iff_take.1 hat
      rw [h64] at this
      unfold Stream.read
      rw [if_neg (by decide), ← this]
      simp only [h64]
    refine ⟨st.pos + 64, ?_, by omega, fun _ => by rw [h64]⟩
    simp only [decodeNull, hread, ok_bind, hcall v b hb]
    rfl

/-- `import eth_abi`, `registry.copy()`, and the type `null` registered in the copy. -/
def withNull [Ext] (e : Encoder) (d : Decoder) : History := importCalls.map (fun op => (0, op)) ++
  [(9, .copy 0), (9, .register 2 (.str t!"null" 50) (.obj e) (.obj d) none)]

/-- The registrations of the copy. -/
def nullRegistry [Ext] (e : Encoder) (d : Decoder) : Registry :=
  ⟨⟨defaultRegistry.encoders.values ++ [(⟨50, .equals t!"null"⟩, .obj e)],
    defaultRegistry.encoders.labels ++ [(t!"null", ⟨50, .equals t!"null"⟩)]⟩,
   ⟨defaultRegistry.decoders.values ++ [(⟨50, .equals t!"null"⟩, .obj d)],
    defaultRegistry.decoders.labels ++ [(t!"null", ⟨50, .equals t!"null"⟩)]⟩⟩

theorem withNull_regs (e : Encoder) (d : Decoder) : letI := ext
    (Plain.run [] (withNull e d))[2]? = some (nullRegistry e d) := by
  let := ext
  rfl

theorem null_default (e : Encoder) (d : Decoder) (s : TypeStr) (hs : s ≠ t!"null") : letI := ext
    DefaultFor (nullRegistry e d) s := by
  let := ext
  have hm : ∀ k, Pred.matches ⟨k, .equals t!"null"⟩ s = .ok false := by
    intro k
    simp only [Pred.matches]
    rw [beq_eq_false_iff_ne.2 (Ne.symm hs)]
  exact ⟨_, _, rfl, rfl, fun q hq => by rw [List.mem_singleton.1 hq]; exact hm _,
    fun q hq => by rw [List.mem_singleton.1 hq]; exact hm _⟩

theorem null_only (e : Encoder) (d : Decoder) : letI := ext
    OnlyMatch (nullRegistry e d).encoders t!"null" (.obj e) ∧
      OnlyMatch (nullRegistry e d).decoders t!"null" (.obj d) := by
  let := ext
  have hnull : ∀ {V : Type} (m : Mapping V) (v : V) (vs : List (Pred × V)),
      (vs.all fun q => decide (q.1.matches t!"null" = .ok false)) = true →
      m.values = vs ++ [(⟨50, .equals t!"null"⟩, v)] → OnlyMatch m t!"null" v := by
    intro V m v vs hvs hm
    exact ⟨vs, _, [], hm, rfl, by
      simpa using fun q hq => of_decide_eq_true (List.all_eq_true.1 hvs q hq)⟩
  exact ⟨hnull _ _ defaultRegistry.encoders.values (by decide +kernel) rfl,
    hnull _ _ defaultRegistry.decoders.values (by decide +kernel) rfl⟩

theorem null_wellformed : letI := ext; Wellformed t!"null" := by
  let := ext
  exact ⟨_, rfl, by decide +kernel, rfl⟩

/-- The hypotheses of `C47_roundTrip` are met by `(null,string)[]`, `null[2]` and `bytes` in the copy. -/
theorem null_built : letI := ext
    BuiltList (nullRegistry encodeNull decodeNull) [t!"(null,string)[]", t!"null[2]", t!"bytes"]
      [ListOf (TupleOf [fun _ v' => v' = .none, fun v v' => ∃ x, denote .string v = some x ∧ v' = toPy .string x]),
       ListOf (fun _ v' => v' = .none),
       fun v v' => ∃ x, denote .bytes v = some x ∧ v' = toPy .bytes x] := by
  let := ext
  have hdef := null_default encodeNull decodeNull
  have hwf : ∀ (s : TypeStr) (t : ABIType), parse s = .ok t → normalize s = s → t.validate = .ok () →
      Wellformed s := fun s t h1 h2 h3 => ⟨t, h1, h2, h3⟩
  have hn : Built (nullRegistry encodeNull decodeNull) true t!"null" (fun _ v' => v' = .none) :=
    C47_registered null_wellformed (null_only _ _).1 (null_only _ _).2
      (fun _ => ⟨by simp [encodeNull], by simp [decodeNull]⟩) null_readsBack
  have hstr := C47_builtin (hdef t!"string" (by decide)) (t := .string) ⟨.string, by decide⟩ (sub := .none) rfl
    (hwf _ _ rfl (by decide +kernel) rfl)
  have hbytes := C47_builtin (hdef t!"bytes" (by decide)) (t := .bytes) ⟨.bytes, by decide⟩ (sub := .none) rfl
    (hwf _ _ rfl (by decide +kernel) rfl)
  have htup : Built (nullRegistry encodeNull decodeNull) true t!"(null,string)" _ :=
    .tuple (.cons hn (.one hstr)) ((C47_compound (hdef t!"(null,string)" (by decide))).2 _ rfl)
  exact .cons (.dyn htup ((C47_compound (hdef t!"(null,string)[]" (by decide))).1 _ rfl rfl))
    (.cons (.sized (k := 2) hn (by decide) (by decide)
      ((C47_compound (hdef t!"null[2]" (by decide))).1 _ rfl rfl)) (.cons hbytes .nil))

/-- A list of arguments for these types, and what is to come back. -/
def nullArgs : List PyVal :=
  [.list [.tuple [.none, .str [97]], .list [.none, .str []]], .tuple [.none, .none], .bytes [1, 2]]

def nullBack : List PyVal :=
  [.tuple [.tuple [.none, .str [97]], .tuple [.none, .str []]], .tuple [.none, .none], .bytes [1, 2]]

example : letI := ext
    Each [ListOf (TupleOf [fun _ v' => v' = .none, fun v v' => ∃ x, denote .string v = some x ∧ v' = toPy .string x]),
       ListOf (fun _ v' => v' = .none),
       fun v v' => ∃ x, denote .bytes v = some x ∧ v' = toPy .bytes x] nullArgs nullBack := by
  let := ext
  have hstr : ∀ cs ∈ [[97], ([] : PyStr)],
      ∃ x, denote .string (.str cs) = some x ∧ PyVal.str cs = toPy .string x := by
    intro cs hcs
    simp only [List.mem_cons, List.not_mem_nil, or_false] at hcs
    rcases hcs with rfl | rfl <;> exact ⟨_, rfl, rfl⟩
  refine .cons ⟨_, _, .list _, rfl, .cons ⟨_, _, .tuple _, rfl, .cons rfl (.cons (hstr _ (by simp)) .nil)⟩
    (.cons ⟨_, _, .list _, rfl, .cons rfl (.cons (hstr _ (by simp)) .nil)⟩ .nil)⟩ ?_
  refine .cons ⟨_, _, .tuple _, rfl, .cons rfl (.cons rfl .nil)⟩ (.cons ⟨.raw [1, 2], rfl, rfl⟩ .nil)

example : letI := ext
    (match ((World.empty.run (withNull encodeNull decodeNull)).encode 9 2 [t!"(null,string)[]", t!"null[2]", t!"bytes"]
        (.list nullArgs)).1 with
      | .ok b => decide (b.length = 640 ∧ ((World.empty.run (withNull encodeNull decodeNull)).decode 9 2
          [t!"(null,string)[]", t!"null[2]", t!"bytes"] (.bytes b) false).1 = .ok (.tuple nullBack))
      | .error _ => false) = true := by
  let := ext
  decide +kernel

end Ex

/-- The size that `ReadsBack` asks for is needed.  The coders `e` and `d` below read back every value
they encode, the encodings are not empty, and `[foo]` round-trips; but `decode` rejects what `encode`
makes of `[foo, bytes]`, since the four bytes of `foo` are shorter than the word that
`TupleDecoder.validate_pointers` counts for it. -/
theorem C47_short_false : letI := Ex.ext
    ∃ (e : Encoder) (d : Decoder) (h : History) (args : PyVal) (b : Bytes),
      (∀ v b, e.call v = .ok b → b ≠ [] ∧ ∀ fl strict (st : Stream), st.data.length ≤ ssizeMax →
        At st.data st.pos b → d.run fl strict st = .ok (v, { st with pos := st.pos + b.length })) ∧
      h = importCalls.map (fun op => (0, op)) ++
        [(9, .copy 0), (9, .register 2 (.str t!"foo" 50) (.obj e) (.obj d) none)] ∧
      ((World.empty.run h).encode 9 2 [t!"foo", t!"bytes"] args).1 = .ok b ∧
      ((World.empty.run h).decode 9 2 [t!"foo", t!"bytes"] (.bytes b) true).1 = .error .invalidPointer := by
  let := Ex.ext
  let e : Encoder :=
    { isDynamic := some false, validate := some fun _ => .ok (), call := fun v => match v with
        | .bytes [x, y, z, w] => .ok [x, y, z, w]
        | _ => .error .encodingTypeError }
  let d : Decoder :=
    { isDynamic := some false, isHeadTail := false, arraySize := none, strict := .shared 0,
      run := fun _ _ st => do
        let (b, st) ← st.read 4
        return (.bytes b, st) }
  refine ⟨e, d, _, .list [.bytes [1, 2, 3, 4], .bytes [5]], _, ?_, rfl, rfl, by decide +kernel⟩
  intro v b hb
  simp only [e] at hb
  split at hb
  · injection hb with hb
    subst hb
    refine ⟨by simp, fun fl strict st _ hat => ?_⟩
    have := at_iff_take.1 hat
    simp only [List.length_cons, List.length_nil, Nat.zero_add, Nat.reduceAdd] at this
    show (do let (b, st) ← st.read 4; return (PyVal.bytes b, st)) = _
    unfold Stream.read
    rw [if_neg (by decide), ← this]
    rfl
  · cases hb

/-! ## C40: callables -/

/-- Arguments of callable encoders: each is encoded by its own encoder, and the head-and-tail layout
is that of the ABI.  Callables count as static.  The arguments' encoders may be callables, objects with
attributes of their own, or built-in. -/
theorem C40_arguments_partial [Ext] (h : History) {r : Nat} {g : Registry}
    (hg : (Plain.run [] h)[r]? = some g) {types : List TypeStr} {args : PyVal} {vs : List PyVal}
    {xs : List Elem} (ha : IsListOf args vs) (hx : EncodesTo g types vs xs)
    (hl : (layout xs).length < 2 ^ 256) :
    ∃ n, ∀ f, n ≤ f → ((World.empty.run h).encode f r types args).1 = .ok (layout xs) := by
  obtain ⟨n, hn⟩ := encodesTo_ok ha hx hl
  refine ⟨n, fun f hf => ?_⟩
  rw [(C28_encode h hg f types args).2 (by rw [hn f hf]; simp), hn f hf]

/-- `encode([t], [v])` with a callable registered for `t` is what the callable returns, or raises what
it raises. -/
theorem C40_single_partial [Ext] (h : History) {r : Nat} {g : Registry}
    (hg : (Plain.run [] h)[r]? = some g) {s : TypeStr} {e : Encoder}
    (he : OnlyMatch g.encoders s (.obj e)) (hc : IsCallable e) (v : PyVal) {args : PyVal}
    (ha : IsListOf args [v]) (hne : e.call v ≠ .error .recursionError) (fuel : Nat) :
    ((World.empty.run h).encode (fuel + 1) r [s] args).1 = e.call v := by
  have hat : encodeAt g (fuel + 1) [s] args = e.call v := by
    simp only [encodeAt, asListLike_param (isListOf_iff.1 ha), ok_bind, mapPyM, getEncoderFuel,
      (getRegistration_ok _ _ _).2 ((find_iff _ _ _).2 he), pure_eq_ok]
    exact callable_one hc v ha
  rw [(C28_encode h hg _ _ _).2 (by rw [hat]; exact hne), hat]

/-- The claim is false of every callable: an array of a type that a callable encodes has no encoder
(`t[k]`), or an encoder for the empty list only (`t[]`).  What is raised is `AttributeError`, which is
no `EncodingError`. -/
theorem C40_encode_false [Ext] (h : History) {r : Nat} {g : Registry}
    (hg : (Plain.run [] h)[r]? = some g) {s : TypeStr} (hs : Wellformed s) {e : Encoder}
    (he : OnlyMatch g.encoders s (.obj e)) (hc : IsCallable e) (fuel : Nat) :
    (∀ k, 0 < k → numOk k = true → ServedAsArray g (s ++ t!"[" ++ natDigits k ++ t!"]") →
      ((World.empty.run h).getEncoder (fuel + 2) r (s ++ t!"[" ++ natDigits k ++ t!"]")).1
        = .error .attributeError ∧
      ∀ args vs, IsListOf args vs →
        ((World.empty.run h).encode (fuel + 2) r [s ++ t!"[" ++ natDigits k ++ t!"]"] args).1
          = .error .attributeError) ∧
    (ServedAsArray g (s ++ t!"[]") → ∀ v vs args, IsSeqOf v vs → IsListOf args [v] →
      vs.length < 2 ^ 256 →
      ((World.empty.run h).encode (fuel + 2) r [s ++ t!"[]"] args).1 =
        if vs = [] then .ok (be32 32 ++ be32 0) else .error .attributeError) := by
  have hown : getEncoderFuel g.encoders (fuel + 1) s = .ok e := by
    rw [getEncoderFuel, (getRegistration_ok _ _ _).2 ((find_iff _ _ _).2 he)]
  constructor
  · intro k hk hn hA
    have hw : DerivesDims [some k] (t!"[" ++ natDigits k ++ t!"]") := dims_one hk
    obtain ⟨_, hplan⟩ := array_ask hs hw (by simpa [arrNumsOk] using hn)
    rw [List.append_assoc, List.append_assoc] at hA ⊢
    rw [← List.append_assoc t!"["] at hA ⊢
    have hget : getEncoderFuel g.encoders (fuel + 2) (s ++ (t!"[" ++ natDigits k ++ t!"]"))
        = .error .attributeError := by
      rw [serves_exec_enc hA.1, hplan]
      simp only [Plan.exec, hown]
      exact callable_sized hc k
    refine ⟨?_, fun args vs ha => ?_⟩
    · rw [(C28_getEncoder h hg _ _).2 (by rw [hget]; simp), hget]
    · have hat : encodeAt g (fuel + 2) [s ++ (t!"[" ++ natDigits k ++ t!"]")] args
          = .error .attributeError := by
        simp only [encodeAt, asListLike_param (isListOf_iff.1 ha), ok_bind, mapPyM, hget, error_bind]
      rw [(C28_encode h hg _ _ _).2 (by rw [hat]; simp), hat]
  · intro hA v vs args hv ha hl
    obtain ⟨_, hplan⟩ := array_ask hs (w := t!"[]") (dim := none) (.dynamic .nil) rfl
    have hget : getEncoderFuel g.encoders (fuel + 2) (s ++ t!"[]") = .ok (mkDynamicArray e) := by
      rw [serves_exec_enc hA.1, hplan]
      simp only [Plan.exec, hown]
      rfl
    have hat : encodeAt g (fuel + 2) [s ++ t!"[]"] args =
        if vs = [] then .ok (be32 32 ++ be32 0) else .error .attributeError := by
      simp only [encodeAt, asListLike_param (isListOf_iff.1 ha), ok_bind, mapPyM, hget, pure_eq_ok]
      cases vs with
      | nil => exact callable_dynamic_empty hv ha
      | cons x xs => exact callable_dynamic hc hv hl ha
    rw [(C28_encode h hg _ _ _).2 (by rw [hat]; split <;> simp), hat]

/-- And of decoders: with a decoder that has no attribute `is_dynamic`, no data are decoded as an array,
not even an empty one. -/
theorem C40_decode_false [Ext] (h : History) {r : Nat} {g : Registry}
    (hg : (Plain.run [] h)[r]? = some g) {s : TypeStr} (hs : Wellformed s) {d : Decoder}
    (hd : OnlyMatch g.decoders s (.obj d)) (hc : d.isDynamic = none) (fuel : Nat) {w : TypeStr}
    (hw : w = t!"[]" ∨ ∃ k, 0 < k ∧ numOk k = true ∧ w = t!"[" ++ natDigits k ++ t!"]")
    (hA : ServedAsArray g (s ++ w)) (b : Bytes) (strict : Bool) :
    ((World.empty.run h).decode (fuel + 2) r [s ++ w] (.bytes b) strict).1 = .error .attributeError := by
  obtain ⟨dim, hw, hn⟩ : ∃ dim, DerivesDims [dim] w ∧ arrNumsOk [dim] = true := by
    rcases hw with rfl | ⟨k, hk, hn, rfl⟩
    · exact ⟨none, (.dynamic .nil), rfl⟩
    · exact ⟨some k, dims_one hk, by simpa [arrNumsOk] using hn⟩
  obtain ⟨_, hplan⟩ := array_ask hs hw hn
  have hown : getDecoderFuel g.decoders (fuel + 1) s true = .ok (d.setStrict true) := by
    rw [getDecoderFuel, (getRegistration_ok _ _ _).2 ((find_iff _ _ _).2 hd)]
  have hc' : (d.setStrict true).isDynamic = none := by
    unfold Decoder.setStrict
    split
    · split <;> exact hc
    · exact hc
  have hget : getDecoderFuel g.decoders (fuel + 2) (s ++ w) strict = .error .attributeError := by
    rw [serves_exec_dec hA.2, hplan]
    simp only [Plan.exec, hown, callable_arrayD hc', error_bind]
  obtain ⟨fl, _, h2⟩ := C28_decode h hg (fuel + 2) [s ++ w] (.bytes b) strict
  have hat : decodeAt g fl (fuel + 2) [s ++ w] (.bytes b) strict = .error .attributeError := by
    simp only [decodeAt, validateBytesParam, asBytes?, ok_bind, mapPyM, hget, error_bind]
  rw [h2 (by rw [hat]; simp), hat]

namespace Ex

/-- A callable encoder: `lambda v: v`, for values of 32 bytes. -/
def echo : Encoder where
  isDynamic := none
  validate := none
  call v := match v with
    | .bytes b => if b.length = 32 then .ok b else .error .valueError
    | _ => .error .typeError

/-- A callable decoder: `lambda stream: stream.read(32)`. -/
def echoD : Decoder where
  isDynamic := none
  isHeadTail := false
  arraySize := none
  strict := .shared 0
  run _ _ st := do
    let (b, st) ← st.read 32
    return (.bytes b, st)

/-- The hypotheses of the theorems on arrays are met. -/
example : letI := ext
    IsCallable echo ∧ echoD.isDynamic = none ∧ Wellformed t!"null" ∧
      (Plain.run [] (withNull echo echoD))[2]? = some (nullRegistry echo echoD) ∧
      OnlyMatch (nullRegistry echo echoD).encoders t!"null" (.obj echo) ∧
      OnlyMatch (nullRegistry echo echoD).decoders t!"null" (.obj echoD) ∧
      ServedAsArray (nullRegistry echo echoD) (t!"null" ++ t!"[" ++ natDigits 2 ++ t!"]") ∧
      ServedAsArray (nullRegistry echo echoD) (t!"null" ++ t!"[]") := by
  let := ext
  exact ⟨⟨rfl, rfl⟩, rfl, null_wellformed, withNull_regs _ _, (null_only _ _).1, (null_only _ _).2,
    (C47_compound (null_default _ _ t!"null[2]" (by decide))).1 _ rfl rfl,
    (C47_compound (null_default _ _ t!"null[]" (by decide))).1 _ rfl rfl⟩

/-- The callables read back, so that they may stand in `Built` as arguments and in tuples. -/
theorem echo_readsBack : ReadsBack echo echoD fun v v' => v = v' := by
  have hcall : ∀ v b, echo.call v = .ok b → v = .bytes b ∧ b.length = 32 := by
    intro v b hb
    simp only [echo] at hb
    split at hb
    · split at hb
      · injection hb with hb; subst hb; exact ⟨rfl, by assumption⟩
      · cases hb
    · cases hb
  refine ⟨rfl, rfl, ?_, ?_⟩
  · intro v v' b _ hb
    have := (hcall v b hb).2
    exact ⟨by omega, fun _ => ⟨by omega, by simp [echoD]; omega⟩⟩
  · rintro v v' b rfl hb fl strict st hl hat _
    obtain ⟨rfl, h32⟩ := hcall v b hb
    have hlen := at_length hat (by omega)
    have hread : st.read 32 = .ok (b, { st with pos := st.pos + 32 }) := by
      have := at_iff_take.1 hat
      rw [h32] at this
      unfold Stream.read
      rw [if_neg (by decide), ← this]
      simp only [h32]
    refine ⟨st.pos + 32, ?_, by omega, fun _ => by rw [h32]⟩
    simp only [echoD, hread, ok_bind]
    rfl

/-- Callables as arguments, with a dynamic argument beside them. -/
example : letI := ext
    EncodesTo (nullRegistry echo echoD) [t!"null", t!"bytes"] [.bytes (List.replicate 32 7), .bytes [1]]
      [(false, List.replicate 32 7), (true, be32 1 ++ 1 :: List.replicate 31 0)] := by
  let := ext
  refine .cons (e := echo) ⟨1, fun f hf => ?_⟩ rfl (.inl rfl)
    (.cons (e := encOf false .bytes) ?_ rfl (.inr rfl) .nil)
  · obtain ⟨f, rfl⟩ : ∃ f', f = f' + 1 := ⟨f - 1, by omega⟩
    show getEncoderFuel (nullRegistry echo echoD).encoders (f + 1) t!"null" = _
    rw [getEncoderFuel, (getRegistration_ok _ _ _).2 ((find_iff _ _ _).2 (null_only _ _).1)]
  · exact (default_basic (null_default _ _ t!"bytes" (by decide)) (sub := .none) rfl ⟨.bytes, by decide⟩).1

end Ex

end EthAbi
