import Verif.Lemmas.Text
import Verif.Props.Caching
import Verif.Props.Custom
import Verif.Props.Grammar

/-!
# C48: `StringDecoder(handle_string_errors=...)`

As in `Props/Caching.lean`, `h` is an arbitrary history and `(Plain.run [] h)[r]? = some g` says that
registry `r` exists and has the registrations `g` after it.  `f` is `bytes.decode` with some error
handler: any function from bytes to a string or an exception.
-/
namespace EthAbi
open Spec

/-- `decode(types, data)` of a codec over registry `r` after the history has this outcome (for every
large enough recursion limit). -/
def DecodesTo [Ext] (h : History) (r : Nat) (types : List TypeStr) (data : PyVal) (x : PyM PyVal) : Prop :=
  ComesTo (fun n => ((World.empty.run h).decode n r types data true).1) x

theorem decodesTo_iff [Ext] {h : History} (hs : OnlyStrict h) {r : Nat} {g : Registry}
    (hg : (Plain.run [] h)[r]? = some g) {types : List TypeStr} {data : PyVal} {x : PyM PyVal}
    (hx : x ≠ .error .recursionError) : DecodesTo h r types data x ↔
      ComesTo (fun n => decodeAt g (fun _ => true) n types data true) x := by
  constructor
  · rintro ⟨n, hn⟩
    have := (C31_objects_partial h hs hg n types data).1
    rw [show ((World.empty.run h).decode n r types data true).1 = x from hn n le_rfl] at this
    exact this hx
  · rintro ⟨n, hn⟩
    refine ⟨n, fun m hm => ?_⟩
    have hm : decodeAt g (fun _ => true) m types data true = x := hn m hm
    rw [← hm]
    exact (C31_objects_partial h hs hg m types data).2 (by rw [hm]; exact hx)

theorem text_outcome [Ext] {g : Registry} {name : TypeStr} {f : Bytes → PyM PyStr} {i : Nat}
    (hn : OnlyMatch g.decoders name (.obj (stringDecoderWith f (.shared i)))) (hb : DecodesBytes g)
    {types types' : List TypeStr} {Rs : List (PyVal → PyVal → Prop)}
    (ht : TextForList g name f types types' Rs) (data : PyVal) :
    ∃ x y, ComesTo (fun n => decodeAt g (fun _ => true) n types' data true) x ∧
      ComesTo (fun n => decodeAt g (fun _ => true) n types data true) y ∧
      ((∃ vs ws, x = .ok (.tuple vs) ∧ y = .ok (.tuple ws) ∧ Each Rs vs ws) ∨
      (∃ vs e, x = .ok (.tuple vs) ∧ y = .error e ∧ (∃ b, f b = .error e) ∧ ∀ ws, ¬Each Rs vs ws) ∨
      (∃ e e', x = .error e ∧ y = .error e' ∧ (e' = e ∨ ∃ b, f b = .error e'))) := by
  obtain ⟨ds, ds', h1, h2, h3⟩ := textList_ok hn hb ht
  exact ⟨_, _, decodeAt_gets h1 data, decodeAt_gets h2 data, decode_like h3 data _ _ rfl rfl⟩

/-- **C48.**  With a registered `StringDecoder` that has an error handler `f`, `decode` returns what it
returns for `bytes` in the place of its name, with the bytes in these places read by `f`: alone, in
arrays and in tuples; and it returns nothing else. -/
theorem C48_decode [Ext] (h : History) (hs : OnlyStrict h) {r : Nat} {g : Registry}
    (hg : (Plain.run [] h)[r]? = some g) {name : TypeStr} {f : Bytes → PyM PyStr} {i : Nat}
    (hn : OnlyMatch g.decoders name (.obj (stringDecoderWith f (.shared i)))) (hb : DecodesBytes g)
    {types types' : List TypeStr} {Rs : List (PyVal → PyVal → Prop)}
    (ht : TextForList g name f types types' Rs) (data : PyVal) (ws : List PyVal) :
    DecodesTo h r types data (.ok (.tuple ws)) ↔
      ∃ vs, DecodesTo h r types' data (.ok (.tuple vs)) ∧ Each Rs vs ws := by
  obtain ⟨x, y, hx, hy, hxy⟩ := text_outcome hn hb ht data
  constructor
  · intro hw
    have := comesTo_unique hy ((decodesTo_iff hs hg (by simp)).1 hw)
    subst this
    rcases hxy with ⟨vs, ws', rfl, h2, h3⟩ | ⟨_, _, _, h2, _⟩ | ⟨_, _, _, h2, _⟩
    · cases h2
      exact ⟨vs, (decodesTo_iff hs hg (by simp)).2 hx, h3⟩
    · cases h2
    · cases h2
  · rintro ⟨vs, hv, hR⟩
    have := comesTo_unique hx ((decodesTo_iff hs hg (by simp)).1 hv)
    subst this
    rcases hxy with ⟨vs', ws', h1, rfl, h3⟩ | ⟨vs', _, h1, _, _, h4⟩ | ⟨_, _, h1, _⟩
    · cases h1
      rw [textList_functional ht hR h3]
      exact (decodesTo_iff hs hg (by simp)).2 hy
    · cases h1
      exact absurd hR (h4 ws)
    · cases h1

/-- **C48.**  A handler that never raises (`replace`, `ignore`, `backslashreplace`, ...): `decode`
returns a value whenever it does for `bytes`, and otherwise raises the same exception. -/
theorem C48_total [Ext] (h : History) (hs : OnlyStrict h) {r : Nat} {g : Registry}
    (hg : (Plain.run [] h)[r]? = some g) {name : TypeStr} {f : Bytes → PyM PyStr} {i : Nat}
    (hf : ∀ b, ∃ t, f b = .ok t)
    (hn : OnlyMatch g.decoders name (.obj (stringDecoderWith f (.shared i)))) (hb : DecodesBytes g)
    {types types' : List TypeStr} {Rs : List (PyVal → PyVal → Prop)}
    (ht : TextForList g name f types types' Rs) (data : PyVal) :
    (∀ vs, DecodesTo h r types' data (.ok (.tuple vs)) →
      ∃ ws, DecodesTo h r types data (.ok (.tuple ws)) ∧ Each Rs vs ws) ∧
    (∀ e, e ≠ .recursionError →
      (DecodesTo h r types data (.error e) ↔ DecodesTo h r types' data (.error e))) := by
  obtain ⟨x, y, hx, hy, hxy⟩ := text_outcome hn hb ht data
  have hno : ∀ e, ¬∃ b, f b = .error e := by
    rintro e ⟨b, hb⟩
    obtain ⟨t, ht⟩ := hf b
    rw [ht] at hb
    cases hb
  constructor
  · intro vs hv
    have := comesTo_unique hx ((decodesTo_iff hs hg (by simp)).1 hv)
    subst this
    rcases hxy with ⟨vs', ws', h1, rfl, h3⟩ | ⟨vs', e, _, _, h3, _⟩ | ⟨_, _, h1, _⟩
    · cases h1
      exact ⟨ws', (decodesTo_iff hs hg (by simp)).2 hy, h3⟩
    · exact absurd h3 (hno e)
    · cases h1
  · intro e he
    rw [decodesTo_iff hs hg (by simpa using he), decodesTo_iff hs hg (by simpa using he)]
    have key : x = .error e ↔ y = .error e := by
      rcases hxy with ⟨vs', ws', rfl, rfl, h3⟩ | ⟨vs', e, _, _, h3, _⟩ | ⟨e1, e2, rfl, rfl, h3⟩
      · simp
      · exact absurd h3 (hno e)
      · rcases h3 with rfl | h3
        · rfl
        · exact absurd h3 (hno _)
    constructor
    · intro h1
      have := comesTo_unique hy h1
      rw [← key.2 this]
      exact hx
    · intro h1
      have := comesTo_unique hx h1
      rw [← key.1 this]
      exact hy

/-- **C48.**  If the handler raises on some of the bytes, that exception comes out of `decode`, unless
the data is malformed as well. -/
theorem C48_raises [Ext] (h : History) (hs : OnlyStrict h) {r : Nat} {g : Registry}
    (hg : (Plain.run [] h)[r]? = some g) {name : TypeStr} {f : Bytes → PyM PyStr} {i : Nat}
    (hf : ∀ b, f b ≠ .error .recursionError)
    (hn : OnlyMatch g.decoders name (.obj (stringDecoderWith f (.shared i)))) (hb : DecodesBytes g)
    {types types' : List TypeStr} {Rs : List (PyVal → PyVal → Prop)}
    (ht : TextForList g name f types types' Rs) (data : PyVal) :
    (∀ vs, DecodesTo h r types' data (.ok (.tuple vs)) → (∀ ws, ¬Each Rs vs ws) →
      ∃ b e, f b = .error e ∧ DecodesTo h r types data (.error e)) ∧
    (∀ e, e ≠ .recursionError → DecodesTo h r types' data (.error e) →
      DecodesTo h r types data (.error e) ∨
        ∃ b e', f b = .error e' ∧ DecodesTo h r types data (.error e')) := by
  obtain ⟨x, y, hx, hy, hxy⟩ := text_outcome hn hb ht data
  constructor
  · intro vs hv hno
    have := comesTo_unique hx ((decodesTo_iff hs hg (by simp)).1 hv)
    subst this
    rcases hxy with ⟨vs', ws', h1, rfl, h3⟩ | ⟨vs', e, _, rfl, ⟨b, h3⟩, _⟩ | ⟨_, _, h1, _⟩
    · cases h1
      exact absurd h3 (hno ws')
    · refine ⟨b, e, h3, (decodesTo_iff hs hg ?_).2 hy⟩
      rintro hc
      cases hc
      exact hf b h3
    · cases h1
  · intro e he hv
    have := comesTo_unique hx ((decodesTo_iff hs hg (by simpa using he)).1 hv)
    subst this
    rcases hxy with ⟨vs', ws', h1, _⟩ | ⟨vs', e, h1, _⟩ | ⟨e1, e2, h1, rfl, h3⟩
    · cases h1
    · cases h1
    · cases h1
      rcases h3 with rfl | ⟨b, h3⟩
      · exact .inl ((decodesTo_iff hs hg (by simpa using he)).2 hy)
      · refine .inr ⟨b, e2, h3, (decodesTo_iff hs hg ?_).2 hy⟩
        rintro hc
        cases hc
        exact hf b h3

/-! ## The encoder -/

theorem replaced_digitFree [Ext] {s s' : TypeStr} (h : Replaced s s')
    (hd : ∀ c ∈ s', c.isDigit = false) : s' = s := by
  induction h with
  | nil => rfl
  | other _ _ ih => rw [ih fun c hc => hd c (by simp [hc])]
  | «alias» ha _ _ _ =>
    exfalso
    cases ha
    all_goals first
      | exact absurd (hd '2' (List.mem_append_left _ (by decide))) (by decide)
      | exact absurd (hd '1' (List.mem_append_left _ (by decide))) (by decide)
  | word _ _ _ _ _ ih => rw [ih fun c hc => hd c (by simp [hc])]

/-- Under another name than `string` the class `TextStringEncoder` gives no encoder. -/
theorem textString_none [Ext] {name : TypeStr} (hname : name ≠ t!"string") (e : Encoder)
    (look : TypeStr → PyM Encoder) :
    (basicPlan t!"string" (fun _ => .ok textStringEncoder) name).exec look ≠ .ok e := by
  intro hc
  have hc : (parseTypeStr (some t!"string") false name >>= fun t => Except.ok textStringEncoder) = .ok e := hc
  obtain ⟨t, h1, _⟩ := bind_eq_ok.1 hc
  unfold parseTypeStr at h1
  obtain ⟨a, hp, h2⟩ := bind_eq_ok.1 h1
  have hstr := derives_str (parse_ok_iff.1 hp).1
  apply hname
  have key : normalize name = t!"string" := by
    cases a with
    | tuple cs arr => cases h2
    | basic b sub arr =>
      simp only at h2
      split at h2
      · cases h2
      · rename_i hb
        have hb : b = t!"string" := by simpa using hb
        subst hb
        cases arr with
        | cons d ds => cases h2
        | nil =>
          cases sub with
          | none => rw [hstr]; rfl
          | one n => cases h2
          | two m n => cases h2
  have hr := (C23_words name t!"string").1 key
  exact (replaced_digitFree hr (by decide)).symm

/-- The documentation registers the class `TextStringEncoder` together with the decoder object.  Under
any name but `string` this is a registration that never encodes anything. -/
theorem C48_encode_false [Ext] (h : History) {r : Nat} {g : Registry}
    (hg : (Plain.run [] h)[r]? = some g) {name : TypeStr} (hname : name ≠ t!"string")
    (he : OnlyMatch g.encoders name (.cls (basicPlan t!"string" fun _ => .ok textStringEncoder)))
    {types : List TypeStr} (hm : name ∈ types) (args : PyVal) (fuel : Nat) (b : Bytes) :
    ((World.empty.run h).encode fuel r types args).1 ≠ .ok b := by
  intro hc
  obtain ⟨n, hn⟩ := (C28_encode h hg fuel types args).1 (by rw [hc]; simp)
  rw [hc] at hn
  have hn : encodeAt g (n + 1) types args = .ok b := hn (n + 1) (by omega)
  simp only [encodeAt] at hn
  obtain ⟨_, _, h2⟩ := bind_eq_ok.1 hn
  obtain ⟨es, h3, _⟩ := bind_eq_ok.1 h2
  obtain ⟨e, h4⟩ := forall2_mem (mapPyM_ok.1 h3) hm
  have h4 : getEncoderFuel g.encoders (n + 1) name = .ok e := h4
  rw [serves_exec_enc he] at h4
  exact textString_none hname e _ h4

/-- With an *object* `TextStringEncoder()` in its place, `encode` does for the name what it does for
`string`. -/
theorem C48_encode_object [Ext] (h : History) {r : Nat} {g : Registry}
    (hg : (Plain.run [] h)[r]? = some g) {name : TypeStr}
    (he : OnlyMatch g.encoders name (.obj textStringEncoder))
    (hstr : OnlyMatch g.encoders t!"string" (.cls (basicPlan t!"string" fun _ => .ok textStringEncoder)))
    {types types' : List TypeStr}
    (ht : List.Forall₂ (fun s s' => s = s' ∨ s = name ∧ s' = t!"string") types types') (args : PyVal)
    (x : PyM Bytes) (hx : x ≠ .error .recursionError) :
    ComesTo (fun n => ((World.empty.run h).encode n r types args).1) x ↔
      ComesTo (fun n => ((World.empty.run h).encode n r types' args).1) x := by
  have key : ∀ n, 1 ≤ n → encodeAt g n types args = encodeAt g n types' args := by
    intro n hn
    obtain ⟨n, rfl⟩ : ∃ n', n = n' + 1 := ⟨n - 1, by omega⟩
    have : mapPyM (getEncoderFuel g.encoders (n + 1)) types =
        mapPyM (getEncoderFuel g.encoders (n + 1)) types' := by
      clear hn
      induction ht with
      | nil => rfl
      | @cons s s' _ _ h1 _ ih =>
        have hs : getEncoderFuel g.encoders (n + 1) s = getEncoderFuel g.encoders (n + 1) s' := by
          rcases h1 with rfl | ⟨rfl, rfl⟩
          · rfl
          · rw [serves_exec_enc hstr, basicPlan_eq _ (derives_word (b := t!"string") (by decide)) rfl,
              getEncoderFuel, (getRegistration_ok _ _ _).2 ((find_iff _ _ _).2 he)]
            rfl
        rw [mapPyM, mapPyM, hs, ih]
    rw [encodeAt, encodeAt, this]
  have both : ∀ ts, ComesTo (fun n => ((World.empty.run h).encode n r ts args).1) x ↔
      ComesTo (fun n => encodeAt g n ts args) x := by
    intro ts
    constructor
    · rintro ⟨n, hn⟩
      have := (C28_encode h hg n ts args).1
      rw [show ((World.empty.run h).encode n r ts args).1 = x from hn n le_rfl] at this
      exact this hx
    · rintro ⟨n, hn⟩
      refine ⟨n, fun m hm => ?_⟩
      have hm : encodeAt g m ts args = x := hn m hm
      rw [← hm]
      exact (C28_encode h hg m ts args).2 (by rw [hm]; exact hx)
  rw [both, both]
  constructor
  · rintro ⟨n, hn⟩
    exact ⟨n + 1, fun m hm => (key m (by omega)).symm.trans (hn m (by omega))⟩
  · rintro ⟨n, hn⟩
    exact ⟨n + 1, fun m hm => (key m (by omega)).trans (hn m (by omega))⟩

/-! ## Examples -/

/-- `errors="surrogateescape"`: a byte that cannot be read becomes the code point U+DC00 plus it. -/
def Ex.surrogateescape (b : Bytes) : PyM PyStr := .ok (go b.length b)
where
  go : Nat → Bytes → PyStr
  | _, [] => []
  | 0, _ => []
  | n + 1, x :: b =>
    match utf8Step (x :: b) with
    | some (c, rest) => c :: go n rest
    | none => ⟨0xDC00 + x.toNat, by have := x.toNat_lt; omega⟩ :: go n b

/-- What docs/registry.rst registers, in the default registry; and the same decoder in the place of the
default one for `string`, in a copy. -/
def Ex.lenient [Ext] : History :=
  (importCalls.map fun op => (9, op)) ++
  [(9, .register 0 (.str t!"surrogateescape_string" 200)
      (.cls (basicPlan t!"string" fun _ => .ok textStringEncoder))
      (.obj (stringDecoderWith Ex.surrogateescape (.shared 0))) none),
   (9, .copy 0), (9, .unregisterDecoder 2 (.str t!"string" 201)),
   (9, .registerDecoder 2 (.str t!"string" 202)
      (.obj (stringDecoderWith Ex.surrogateescape (.shared 1))) none)]

/-- The data of the documentation: `cat` with a byte that is no UTF-8. -/
def Ex.badString : Bytes := be32 32 ++ be32 3 ++ [99, 255, 116] ++ List.replicate 29 0

example : letI := Ex.ext
    ((World.empty.run Ex.lenient).decode 9 0 [t!"string"] (.bytes Ex.badString) true).1 =
      .error .unicodeDecodeError ∧
    ((World.empty.run Ex.lenient).decode 9 0 [t!"surrogateescape_string"] (.bytes Ex.badString) true).1 =
      .ok (.tuple [.str [99, 0xDCFF, 116]]) ∧
    ((World.empty.run Ex.lenient).encode 9 0 [t!"surrogateescape_string"] (.list [.str [99]])).1 =
      .error .parseError ∧
    ((World.empty.run Ex.lenient).decode 9 2 [t!"(uint8,string)"]
      (.bytes (be32 32 ++ be32 1 ++ be32 64 ++ Ex.badString.drop 32)) true).1 =
      .ok (.tuple [.tuple [.int 1, .str [99, 0xDCFF, 116]]]) := by
  decide +kernel

/-- The hypotheses are met, for `string[]` in the copy and for the name in the documentation. -/
example : letI := Ex.ext
    ∃ g g', (Plain.run [] Ex.lenient)[0]? = some g ∧ (Plain.run [] Ex.lenient)[2]? = some g' ∧
      OnlyStrict Ex.lenient ∧
      OnlyMatch g.encoders t!"surrogateescape_string"
        (.cls (basicPlan t!"string" fun _ => .ok textStringEncoder)) ∧
      OnlyMatch g'.decoders t!"string" (.obj (stringDecoderWith Ex.surrogateescape (.shared 1))) ∧
      DecodesBytes g' ∧
      TextForList g' t!"string" Ex.surrogateescape [t!"string[]", t!"string"] [t!"bytes[]", t!"bytes"]
        [ListOf (AsText Ex.surrogateescape), AsText Ex.surrogateescape] := by
  letI := Ex.ext
  refine ⟨_, _, rfl, rfl, ?_, ?_, ?_, ?_, ?_⟩
  · simp [OnlyStrict, Ex.lenient, importCalls, registerCalls, registerEncoderCalls, defaultPreds,
      defaultEncoders, defaultDecoders, packedEncoders]
  · exact ⟨_, _, [], rfl, by decide +kernel, by decide +kernel⟩
  · exact ⟨_, _, [], rfl, by decide +kernel, by decide +kernel⟩
  · exact onlyMatch_at 7 rfl (by decide +kernel) (by decide +kernel)
  · refine .cons (.dyn (s := t!"string") (s' := t!"bytes") .name ?_ ?_ ?_ ?_) (.cons .name .nil)
    · exact wellformed_iff.2 ⟨_, derives_word (b := t!"string") (by decide), rfl, rfl, rfl⟩
    · exact wellformed_iff.2 ⟨_, derives_word (b := t!"bytes") (by decide), rfl, rfl, rfl⟩
    · exact onlyMatch_at 9 rfl (by decide +kernel) (by decide +kernel)
    · exact onlyMatch_at 9 rfl (by decide +kernel) (by decide +kernel)

end EthAbi
