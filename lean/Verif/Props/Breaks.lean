import Verif.Lemmas.Breaks
import Verif.Lemmas.Api
import Verif.Props.Examples

/-!
# C77: which exception wrong data lead to

`Spec/Breaks.lean` says what can be wrong with data, in which order it is looked for, and which exception it leads to.
-/
namespace EthAbi
open Spec

theorem readsArgs_counted {strict : Bool} {ts : List Ty} {d : Bytes} {xs : List Val} :
    ReadsArgs countedHead strict ts d xs ↔ ReadsArgs codeHead strict ts d xs := by rw [countedHead_fun]

/-- **C77** (refused).  `decode` raises `e` exactly if something is wrong with the data for which `e` is the exception. -/
theorem C77_refuses [Ext] {types : List TypeStr} {ts : List Ty} (hT : Names types ts) {data : PyVal} {d : Bytes}
    (hd : IsBytes data d) (hl : Fits d) {strict : Bool} {e : Exc} :
    decode types data strict = .error e ↔ ∃ w, BrokenArgs strict ts d w ∧ w.exc = e := by
  simp only [← posTop_breaks (supportedAll_valid hT) strict hl, ← TM.exc_eq_error, posTopT_exc]
  rw [decode_eq hT (isBytes_iff.1 hd) hl strict, bind_eq_error]
  constructor
  · rintro (h | ⟨_, _, h⟩)
    · exact h
    · cases h
  · exact .inl

/-- **C77** (accepted).  `decode` returns a value exactly if the data hold it, with offsets behind the head as the library
counts it. -/
theorem C77_accepts [Ext] {types : List TypeStr} {ts : List Ty} (hT : Names types ts) {data : PyVal} {d : Bytes}
    (hd : IsBytes data d) (hl : Fits d) {strict : Bool} {v : PyVal} :
    decode types data strict = .ok v ↔
      ∃ xs, ReadsArgs countedHead strict ts d xs ∧ v = .tuple (toPyAll ts xs) := by
  simp only [readsArgs_counted]
  exact decode_reads hT hd hl

/-- **C77** (one or the other).  Data hold values of the types, and then only these, or something is wrong with them, and
then it is one thing. -/
theorem C77_either [Ext] {types : List TypeStr} {ts : List Ty} (hT : Names types ts) {d : Bytes} (hl : Fits d)
    (strict : Bool) :
    ((∃ xs, ∀ ys, ReadsArgs countedHead strict ts d ys ↔ ys = xs) ∧ ∀ w, ¬ BrokenArgs strict ts d w) ∨
    ((¬ ∃ xs, ReadsArgs countedHead strict ts d xs) ∧ ∃ w, ∀ w', BrokenArgs strict ts d w' ↔ w' = w) := by
  have h1 := fun v => C77_accepts hT (.bytes d) hl (strict := strict) (v := v)
  have h2 := fun w => posTop_breaks (supportedAll_valid hT) strict hl (e := w)
  have h3 := decode_eq hT (isBytes_iff.1 (.bytes d)) hl strict
  rw [← posTopT_exc] at h3
  cases hp : posTopT strict ts d with
  | ok xs =>
    rw [hp] at h3
    obtain ⟨xs, hx, _⟩ := (h1 _).1 h3
    have hu : ∀ ys, ReadsArgs countedHead strict ts d ys ↔ ys = xs := by
      intro ys
      refine ⟨fun hy => ?_, fun h => by rw [h]; exact hx⟩
      have hw := ((h1 _).2 ⟨ys, hy, rfl⟩).symm.trans ((h1 _).2 ⟨xs, hx, rfl⟩)
      injection hw with hw
      injection hw with hw
      exact toPyAll_inj (readsArgs_of hy) (readsArgs_of hx) hw
    exact .inl ⟨⟨xs, hu⟩, fun w hw => by rw [(h2 w).2 hw] at hp; cases hp⟩
  | error w =>
    rw [hp] at h3
    refine .inr ⟨fun ⟨xs, hx⟩ => ?_, w, fun w' => ?_⟩
    · rw [(h1 _).2 ⟨xs, hx, rfl⟩] at h3; cases h3
    · rw [← h2 w', hp]
      exact ⟨fun h => (Except.error.inj h).symm, fun h => by rw [h]⟩

theorem headsBreak_append {d : Bytes} {base lo lo' : Nat} {ts us : List Ty} {strict : Bool} {e : Trouble}
    (hs : ∀ t ∈ ts, t.dynamic = false) : ∀ q, HeadsBreak .tuple d base lo q (components strict ts d) e →
    HeadsBreak .tuple d base lo' q (components strict (ts ++ us) d) e := by
  induction ts with
  | nil => intro q h; exact absurd h id
  | cons t ts ih =>
    intro q h
    have ht := hs t (by simp)
    simp only [components, HeadsBreak, List.cons_append, Component.HeadBreaks, Component.HeadFine, ht,
      Bool.false_eq_true, if_false] at h ⊢
    exact h.imp id (fun h => ⟨h.1, ih (fun t ht => hs t (by simp [ht])) _ h.2⟩)

theorem tails_static_none {d : Bytes} {base : Nat} {ts : List Ty} {strict : Bool} {e : Trouble}
    (hs : ∀ t ∈ ts, t.dynamic = false) : ∀ q, ¬ TailsBreak d base q (components strict ts d) e := by
  induction ts with
  | nil => intro q h; exact h
  | cons t ts ih =>
    intro q h
    have ht := hs t (by simp)
    simp only [components, TailsBreak, ht, Bool.false_eq_true, false_and, false_or, false_imp_iff, true_and] at h
    exact ih (fun t ht => hs t (by simp [ht])) _ h

theorem brokenArgs_append {ts us : List Ty} (hs : ∀ t ∈ ts, t.dynamic = false) {d : Bytes} {strict : Bool} {w : Trouble}
    (h : BrokenArgs strict ts d w) : BrokenArgs strict (ts ++ us) d w := by
  rcases h with h | ⟨_, h⟩
  · exact .inl (headsBreak_append hs 0 h)
  · exact absurd h (tails_static_none hs 0)

/-- **C77** (the beginning decides).  If the first arguments are of static types, an exception for them is the exception for
the whole list, whatever comes after them. -/
theorem C77_beginning [Ext] {pre post : List TypeStr} {ts us : List Ty} (hT : Names pre ts) (hU : Names post us)
    (hs : ∀ t ∈ ts, t.dynamic = false) {data : PyVal} {d : Bytes} (hd : IsBytes data d) (hl : Fits d) {strict : Bool}
    {e : Exc} (h : decode pre data strict = .error e) : decode (pre ++ post) data strict = .error e := by
  rw [C77_refuses hT hd hl] at h
  rw [C77_refuses (List.rel_append hT hU) hd hl]
  obtain ⟨w, h, he⟩ := h
  exact ⟨w, brokenArgs_append hs h, he⟩

/-! ## Cases

Two things are wrong with each of these data; the order decides. -/

/-- An offset into the head, and a boolean that is 2. -/
example : letI := Ex.ext
    decode [t!"bytes", t!"bool"] (.bytes (be32 0 ++ be32 2)) = .error .invalidPointer ∧
    decode [t!"bool", t!"bytes"] (.bytes (be32 2 ++ be32 0)) = .error .nonEmptyPaddingBytes := by decide +kernel

/-- The heads come first: the boolean is looked at before the text, which is not UTF-8. -/
example : letI := Ex.ext
    decode [t!"string", t!"bool"] (.bytes (be32 64 ++ be32 2 ++ be32 1 ++ [255] ++ List.replicate 31 0)) =
      .error .nonEmptyPaddingBytes ∧
    decode [t!"string", t!"bool"] (.bytes (be32 64 ++ be32 1 ++ be32 1 ++ [255] ++ List.replicate 31 0)) =
      .error .unicodeDecodeError := by decide +kernel

/-- The same inside an array: the second offset is looked at before the first text. -/
example : letI := Ex.ext
    decode [t!"string[]"] (.bytes (be32 32 ++ be32 2 ++ be32 64 ++ be32 1000 ++ be32 1 ++ [255] ++
      List.replicate 31 0)) = .error .invalidPointer := by decide +kernel

/-- With `strict=False` a byte string may be cut, but its length must be there and be readable. -/
example : letI := Ex.ext
    decode [t!"bytes"] (.bytes (be32 32 ++ be32 5)) = .error .insufficientDataBytes ∧
    decode [t!"bytes"] (.bytes (be32 32 ++ be32 5)) false = .ok (.tuple [.bytes []]) ∧
    decode [t!"bytes"] (.bytes (be32 32 ++ be32 (2 ^ 255))) false = .error .overflowError := by decide +kernel

example [Ext] : Names [t!"string", t!"bool"] [.string, .bool] :=
  .cons ⟨.string, by decide⟩ (.cons ⟨.bool, by decide⟩ .nil)

end EthAbi
