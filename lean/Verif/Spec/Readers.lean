import Verif.Spec.Composed
import Verif.Spec.Read

/-!
# Specification: what the types built from registered decoders read

A `Reader` says what is read where, without a stream and without frames.  `ReadsBy` is what is asked of a
registered decoder; `ReadAs` gives the reader of each type string that is built from such decoders with the
array and tuple classes of the library.
-/
namespace EthAbi.Spec
open EthAbi

/-- `A data q v p`: the data hold the value `v` at the position `q`; what stands there ends at `p`. -/
abbrev Reader := Bytes → Nat → PyVal → Nat → Prop

/-- `get_decoder(s)` returns `d`. -/
def DecoderIs [Ext] (g : Registry) (s : TypeStr) (d : Decoder) : Prop :=
  ComesTo (fun n => getDecoderFuel g.decoders n s true) (.ok d)

/-- The decoder `d`, while its attribute `strict` is `b`, reads by `A b`.
* `plain`: it is not itself a `HeadTailDecoder`;
* `same`: what it reads does not depend on its attribute `strict`, or it is dynamic and was made for this
  lookup;
* `sound`: what it returns is at the position where the stream stands, and it changes nothing but the
  position of the stream; a static decoder leaves the stream where the value ends;
* `complete`: it returns what is at the position where the stream stands.
A dynamic decoder is called at the beginning of a frame. -/
structure ReadsBy (d : Decoder) (A : Bool → Reader) : Prop where
  plain : d.isHeadTail = false
  same : A false = A true ∨ d.dyn = true ∧ d.strict = .own true
  sound : ∀ fl b (st st' : Stream) v, st.data.length ≤ ssizeMax → st.pos ≤ ssizeMax →
    (d.dyn = true → st.total = st.pos) → d.run fl b st = .ok (v, st') →
    st' = { st with pos := st'.pos } ∧ st'.pos ≤ ssizeMax ∧
      ∃ p, A b st.data st.pos v p ∧ (d.dyn = false → st'.pos = p)
  complete : ∀ fl b (st : Stream) v p, st.data.length ≤ ssizeMax → st.pos ≤ ssizeMax →
    (d.dyn = true → st.total = st.pos) → A b st.data st.pos v p →
    ∃ st', d.run fl b st = .ok (v, st') ∧ (d.dyn = false → st'.pos = p)

/-- A component of a tuple or of an array: whether it is dynamic, how many words the tuple around it takes
it for if it is static, and what it reads. -/
structure Member where
  dyn : Bool
  words : Nat
  reader : Reader

/-- One component, whose head is at `q`.  A static one is there.  A dynamic one is where its offset,
counted from `base`, points, which must be between `lo` and the end of the data. -/
def Slot (P : Member) (data : Bytes) (base lo q : Nat) (v : PyVal) (q' : Nat) : Prop :=
  if P.dyn then ∃ off p, off < 2 ^ 256 ∧ At data q (be32 off) ∧ lo ≤ base + off ∧
    base + off < data.length ∧ P.reader data (base + off) v p ∧ q' = q + 32
  else P.reader data q v q'

/-- Some components, whose heads begin at `q` and end at `p`. -/
def Slots : List Member → Bytes → Nat → Nat → Nat → List PyVal → Nat → Prop
  | [], _, _, _, q, [], p => p = q
  | P :: Ps, data, base, lo, q, v :: vs, p =>
    ∃ q', Slot P data base lo q v q' ∧ Slots Ps data base lo q' vs p
  | _, _, _, _, _, _, _ => False

/-- The words that a tuple takes a component for. -/
def Member.counted (P : Member) : Nat := if P.dyn then 1 else P.words

/-- `(T1,...,Tn)`. -/
def TupleReads (Ps : List Member) : Reader := fun data q v p =>
  ∃ vs, v = .tuple vs ∧ Slots Ps data q (q + 32 * (Ps.map Member.counted).sum) q vs p

/-- `T[k]`. -/
def SizedReads (k : Nat) (P : Member) : Reader := fun data q v p =>
  ∃ vs, v = .tuple vs ∧ Slots (List.replicate k P) data q (q + 32 * k) q vs p

/-- `T[]`: the number of items, and the items. -/
def DynamicReads (P : Member) : Reader := fun data q v p =>
  ∃ k, k < 2 ^ 256 ∧ At data q (be32 k) ∧ SizedReads k P data (q + 32) v p

/-- The elementary types of the library, as `Reads` of `Spec/Read.lean` says: a word, or the length and the
bytes. -/
def ElementaryReads (t : Ty) : Bool → Reader := fun b data q v p =>
  ∃ x, Reads (fun _ => 0) b t data q x ∧ v = toPy t x ∧ (t.dynamic = false → p = q + 32)

mutual
/-- `ReadAs g s dyn n A`: the decoder of the type string `s` reads by `A`, its attribute `is_dynamic` is
`dyn`, and `n` is its attribute `array_size`, or one. -/
inductive ReadAs [Ext] (g : Registry) : TypeStr → Option Bool → Nat → (Bool → Reader) → Prop where
  | own {s : TypeStr} {d : Decoder} {A : Bool → Reader} : Wellformed s → DecoderIs g s d → ReadsBy d A →
      ReadAs g s d.isDynamic (d.arraySize.getD 1) A
  | sized {s : TypeStr} {dy : Bool} {n k : Nat} {A : Bool → Reader} : ReadAs g s (some dy) n A → 0 < k →
      numOk k = true → OnlyMatch g.decoders (s ++ t!"[" ++ natDigits k ++ t!"]") (.cls (arrayPlan mkArrayD)) →
      ReadAs g (s ++ t!"[" ++ natDigits k ++ t!"]") (some dy) k (fun _ => SizedReads k ⟨dy, n, A true⟩)
  | dynamic {s : TypeStr} {dy : Bool} {n : Nat} {A : Bool → Reader} : ReadAs g s (some dy) n A →
      OnlyMatch g.decoders (s ++ t!"[]") (.cls (arrayPlan mkArrayD)) →
      ReadAs g (s ++ t!"[]") (some true) 1 (fun _ => DynamicReads ⟨dy, n, A true⟩)
  | tuple {s : TypeStr} {Ps : List Member} : ReadParts g s Ps →
      OnlyMatch g.decoders (t!"(" ++ s ++ t!")") (.cls (tuplePlan mkTupleD)) →
      ReadAs g (t!"(" ++ s ++ t!")") (some (Ps.any (·.dyn))) 1 (fun _ => TupleReads Ps)
/-- The components of a tuple, separated by commas.  A decoder without `is_dynamic` counts as static. -/
inductive ReadParts [Ext] (g : Registry) : TypeStr → List Member → Prop where
  | one {s : TypeStr} {dy : Option Bool} {n : Nat} {A : Bool → Reader} : ReadAs g s dy n A →
      ReadParts g s [⟨dy.getD false, n, A true⟩]
  | cons {s s' : TypeStr} {dy : Option Bool} {n : Nat} {A : Bool → Reader} {Ps : List Member} :
      ReadAs g s dy n A → ReadParts g s' Ps →
      ReadParts g (s ++ t!"," ++ s') (⟨dy.getD false, n, A true⟩ :: Ps)
end

/-- The types of a call of `decode`; `strict` is its argument. -/
inductive ReadArgs [Ext] (g : Registry) (strict : Bool) : List TypeStr → List Member → Prop where
  | nil : ReadArgs g strict [] []
  | cons {s : TypeStr} {dy : Option Bool} {n : Nat} {A : Bool → Reader} {types : List TypeStr}
      {Ps : List Member} : ReadAs g s dy n A → ReadArgs g strict types Ps →
      ReadArgs g strict (s :: types) (⟨dy.getD false, n, A strict⟩ :: Ps)

end EthAbi.Spec
