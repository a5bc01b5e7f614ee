import Verif.Lemmas.Readers
import Verif.Props.Custom

/-!
# C91: types built from registered decoders read what the layout prescribes

`h` is an arbitrary history and `(Plain.run [] h)[r]? = some g` says that registry `r` exists and has
the registrations `g` after it.
-/
namespace EthAbi
open Spec

/-- For any nesting of arrays and tuples around decoders that a user registered, and any data: what `decode`
returns is what the data hold by the readers of the types, and what they hold `decode` returns. -/
theorem C91_decode [Ext] (h : History) {r : Nat} {g : Registry} (hg : (Plain.run [] h)[r]? = some g)
    {strict : Bool} {types : List TypeStr} {Ps : List Member} (hR : ReadArgs g strict types Ps)
    {arg : PyVal} {data : Bytes} (ha : IsBytes arg data) (hd : Fits data) :
    (∀ fuel v, ((World.empty.run h).decode fuel r types arg strict).1 = .ok v →
      ∃ p, TupleReads Ps data 0 v p) ∧
    ∃ n, ∀ v p, TupleReads Ps data 0 v p → ∀ fuel, n ≤ fuel →
      ((World.empty.run h).decode fuel r types arg strict).1 = .ok v := by
  have hb : validateBytesParam arg = .ok data := by cases ha <;> rfl
  obtain ⟨n, hn⟩ := readArgs_decode hR hb hd
  constructor
  · intro fuel v hv
    obtain ⟨fl, h1, _⟩ := C28_decode h hg fuel types arg strict
    obtain ⟨m, hm⟩ := h1 (by rw [hv]; simp)
    rw [hv] at hm
    exact (hn (max n m) (by omega) fl v).1 (hm (max n m) (by omega))
  · refine ⟨n, fun v p hp fuel hf => ?_⟩
    obtain ⟨fl, _, h2⟩ := C28_decode h hg fuel types arg strict
    have h3 := (hn fuel hf fl v).2 ⟨p, hp⟩
    rw [h2 (by rw [h3]; simp), h3]

/-- What data hold is determined by the types. -/
theorem C91_unique [Ext] {g : Registry} {strict : Bool} {types : List TypeStr} {Ps : List Member}
    (hR : ReadArgs g strict types Ps) {data : Bytes} (hd : Fits data) {v v' : PyVal} {p p' : Nat}
    (h : TupleReads Ps data 0 v p) (h' : TupleReads Ps data 0 v' p') : v = v' := by
  obtain ⟨n, hn⟩ := readArgs_decode hR (arg := .bytes data) rfl hd
  have h1 := (hn n (Nat.le_refl n) (fun _ => true) v).2 ⟨p, h⟩
  have h2 := (hn n (Nat.le_refl n) (fun _ => true) v').2 ⟨p', h'⟩
  rw [h1] at h2
  injection h2

/-- The parts of `ReadAs`, 1: a type string that is served by a registered object or callable. -/
theorem C91_registered [Ext] {g : Registry} {s : TypeStr} (hs : Wellformed s) {d : Decoder}
    (hm : OnlyMatch g.decoders s (.obj d)) {A : Bool → Reader} (hA : ReadsBy d A) :
    ReadAs g s d.isDynamic (d.arraySize.getD 1) A := by
  obtain ⟨e1, e2, e3, e4, e5⟩ := setStrict_dyn d true
  have h1 : DecoderIs g s (d.setStrict true) := by
    refine ⟨1, fun f hf => ?_⟩
    obtain ⟨f, rfl⟩ : ∃ f', f = f' + 1 := ⟨f - 1, by omega⟩
    show getDecoderFuel g.decoders (f + 1) s true = _
    rw [getDecoderFuel, (getRegistration_ok _ _ _).2 ((find_iff _ _ _).2 hm)]
  have h2 : ReadsBy (d.setStrict true) A := by
    refine ⟨by rw [e2]; exact hA.plain, ?_, ?_, ?_⟩
    · rcases hA.same with h3 | ⟨h3, h4⟩
      · exact .inl h3
      · exact .inr ⟨by rw [e1, h3], by rw [own_setStrict h4]; exact h4⟩
    · rw [e1, e4]; exact hA.sound
    · rw [e1, e4]; exact hA.complete
  have := ReadAs.own hs h1 h2
  rwa [e5, e3] at this

/-- The parts of `ReadAs`, 2: the elementary types of the default registry, after other registrations were
added to it. -/
theorem C91_builtin [Ext] {g : Registry} {s : TypeStr} (hg : DefaultFor g s) {t : Ty} (ht : Supported s t)
    {base : List Char} {sub : Sub} (hp : parse s = .ok (.basic base sub [])) (he : t.elementary = true)
    (hs : Wellformed s) : ReadAs g s (some t.dynamic) 1 (ElementaryReads t) := by
  obtain ⟨h1, h2, h3⟩ := elementary_reads (supported_valid ht) he
  have := ReadAs.own hs (default_basic hg hp ht).2 h3
  rwa [h1, h2] at this

/-- The parts of `ReadAs`, 3: arrays and tuples keep their default registrations as long as no registration
matches their type strings. -/
theorem C91_compound [Ext] {g : Registry} {s : TypeStr} (hg : DefaultFor g s) :
    (∀ t, parse s = .ok t → t.isArray = true → OnlyMatch g.decoders s (.cls (arrayPlan mkArrayD))) ∧
    (∀ cs, parse s = .ok (.tuple cs []) → OnlyMatch g.decoders s (.cls (tuplePlan mkTupleD))) :=
  ⟨fun t h1 h2 => ((C47_compound hg).1 t h1 h2).2, fun cs h1 => ((C47_compound hg).2 cs h1).2⟩

namespace Ex

/-- What `decodeNull` reads: 64 zero bytes. -/
def NullReads : Bool → Reader := fun _ data q v p =>
  At data q (List.replicate 64 0) ∧ v = .none ∧ p = q + 64

theorem null_reads : ReadsBy decodeNull NullReads := by
  refine ⟨rfl, .inl rfl, ?_, ?_⟩
  · intro fl b st st' v hl hp _ hr
    simp only [decodeNull, Stream.read] at hr
    rw [if_neg (by decide), ok_bind] at hr
    simp only at hr
    split at hr
    · cases hr
    · next hn =>
      have hn := not_not.1 hn
      cases hr
      have hat : At st.data st.pos (List.replicate 64 0) := at_iff_take.2 (by simpa using hn.symm)
      have hlen := at_length hat (by decide)
      rw [hn]
      simp only [List.length_replicate] at hlen ⊢
      exact ⟨trivial, by omega, _, ⟨hat, rfl, rfl⟩, fun _ => rfl⟩
  · rintro fl b st v p hl hp _ ⟨hat, rfl, rfl⟩
    have h1 := at_iff_take.1 hat
    simp only [List.length_replicate] at h1
    refine ⟨{ st with pos := st.pos + 64 }, ?_, fun _ => rfl⟩
    simp only [decodeNull, Stream.read]
    rw [if_neg (by decide), ok_bind]
    simp only [← h1]
    rfl

/-- The hypotheses of `C91_decode` are met by `(null,string)[]`, `null[2]` and `bytes` in the registry with
`null`. -/
theorem null_args (strict : Bool) : letI := ext
    ReadArgs (nullRegistry encodeNull decodeNull) strict [t!"(null,string)[]", t!"null[2]", t!"bytes"]
      [⟨true, 1, DynamicReads ⟨true, 1, TupleReads [⟨false, 1, NullReads true⟩, ⟨true, 1, ElementaryReads .string true⟩]⟩⟩,
       ⟨false, 2, SizedReads 2 ⟨false, 1, NullReads true⟩⟩,
       ⟨true, 1, ElementaryReads .bytes strict⟩] := by
  let := ext
  have hdef := null_default encodeNull decodeNull
  have hn : ReadAs (nullRegistry encodeNull decodeNull) t!"null" (some false) 1 NullReads :=
    C91_registered null_wellformed (null_only _ _).2 null_reads
  have hstr := C91_builtin (hdef t!"string" (by decide)) (t := .string) ⟨.string, by decide⟩ (sub := .none) rfl rfl
    ⟨_, rfl, by decide +kernel, rfl⟩
  have hbytes := C91_builtin (hdef t!"bytes" (by decide)) (t := .bytes) ⟨.bytes, by decide⟩ (sub := .none) rfl rfl
    ⟨_, rfl, by decide +kernel, rfl⟩
  have htup := ReadAs.tuple (.cons hn (.one hstr)) ((C91_compound (hdef t!"(null,string)" (by decide))).2 _ rfl)
  exact .cons (.dynamic htup ((C91_compound (hdef t!"(null,string)[]" (by decide))).1 _ rfl rfl))
    (.cons (.sized (k := 2) hn (by decide) (by decide)
      ((C91_compound (hdef t!"null[2]" (by decide))).1 _ rfl rfl)) (.cons hbytes .nil))

/-- Data that `encode` does not make: both items of the array are the same bytes, the second argument is in
between, and the last offset points to the beginning of the text. -/
def nullData : Bytes :=
  be32 224 ++ List.replicate 128 0 ++ be32 480 ++ be32 7 ++
  be32 2 ++ be32 64 ++ be32 64 ++ List.replicate 64 0 ++ be32 96 ++ be32 1 ++ [97] ++ List.replicate 31 0 ++
  be32 2 ++ [1, 2] ++ List.replicate 30 0

example : letI := ext
    ((World.empty.run (withNull encodeNull decodeNull)).decode 9 2
      [t!"(null,string)[]", t!"null[2]", t!"bytes"] (.bytes nullData) true).1 =
      .ok (.tuple [.tuple [.tuple [.none, .str [97]], .tuple [.none, .str [97]]], .tuple [.none, .none],
        .bytes [1, 2]]) := by
  decide +kernel

/-- By `C91_decode` these are the values that the data hold in the sense of the specification. -/
example : letI := ext
    ∃ p, TupleReads
      [⟨true, 1, DynamicReads ⟨true, 1, TupleReads [⟨false, 1, NullReads true⟩, ⟨true, 1, ElementaryReads .string true⟩]⟩⟩,
       ⟨false, 2, SizedReads 2 ⟨false, 1, NullReads true⟩⟩, ⟨true, 1, ElementaryReads .bytes true⟩] nullData 0
      (.tuple [.tuple [.tuple [.none, .str [97]], .tuple [.none, .str [97]]], .tuple [.none, .none],
        .bytes [1, 2]]) p := by
  let := ext
  exact (C91_decode (withNull encodeNull decodeNull) (withNull_regs _ _) (null_args true) (.bytes nullData)
    (by decide +kernel)).1 9 _ (by decide +kernel)

end Ex

end EthAbi
