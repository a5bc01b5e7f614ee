import Verif.Lemmas.Looked
import Verif.Props.RoundTrip

/-!
# C79: which bytes of the data a decoded value depends on
-/
namespace EthAbi
open Spec

/-- **C79** (no more bytes than the value has).  Let `v` be decoded from `d`, and let `e` be the encoding of `v`.  There
are at most `len(e)` positions in `d` such that all data with the same bytes there decode to `v`, whatever else they hold; in
strict mode also data that are longer. -/
theorem C79_depends [Ext] {types : List TypeStr} {ts : List Ty} (hT : Names types ts) {d : Bytes} (hl : Fits d)
    {strict : Bool} {v : PyVal} (h : decode types (.bytes d) strict = .ok v) {e : Bytes} (he : encode types v = .ok e) :
    ∃ S : List Nat, S.length ≤ e.length ∧ (∀ p ∈ S, p < d.length) ∧
      ∀ d', Fits d' → LongAs strict d d' → AgreeAt S d d' → decode types (.bytes d') strict = .ok v := by
  obtain ⟨xs, h1, rfl⟩ := (decode_reads hT (.bytes d) hl).1 h
  have hx := readsArgs_of h1
  obtain ⟨ys, h2, rfl⟩ := encode_spec hT (.tuple _) he (toPy_onGridAll hx)
  have hxy : ys = xs := by
    rw [denote_toPyAll (fun t _ => denote_toPy t) hx] at h2
    injection h2 with h2
    exact h2.symm
  subst hxy
  obtain ⟨S, g1, g2, g3⟩ := foot_args h1
  exact ⟨S, g1, g2, fun d' hf hL ha => (decode_reads hT (.bytes d') hf).2 ⟨_, g3 d' hL ha, rfl⟩⟩

/-- **C79** (bytes that do not matter).  If the data are longer than the encoding of the value they decode to, there is a
position where any byte can stand. -/
theorem C79_free [Ext] {types : List TypeStr} {ts : List Ty} (hT : Names types ts) {d : Bytes} (hl : Fits d)
    {strict : Bool} {v : PyVal} (h : decode types (.bytes d) strict = .ok v) {e : Bytes} (he : encode types v = .ok e)
    (hlt : e.length < d.length) :
    ∃ p < d.length, ∀ x : UInt8, decode types (.bytes (d.set p x)) strict = .ok v := by
  obtain ⟨S, h1, h2, h3⟩ := C79_depends hT hl h he
  have : ∃ p < d.length, p ∉ S := by
    by_contra hc
    push Not at hc
    have h4 : Finset.range d.length ⊆ S.toFinset := by
      intro p hp
      rw [List.mem_toFinset]
      exact hc p (Finset.mem_range.1 hp)
    have h5 := Finset.card_le_card h4
    rw [Finset.card_range] at h5
    have h6 := S.toFinset_card_le
    omega
  obtain ⟨p, hp, hS⟩ := this
  refine ⟨p, hp, fun x => h3 _ (by simpa [Fits] using hl) ?_ ?_⟩
  · cases strict <;> simp [LongAs]
  · intro q hq
    rw [List.getElem?_set_ne]
    rintro rfl
    exact hS hq

/-! ## Cases -/

/-- An offset that skips a word: the skipped word does not matter, but the data cannot be shorter. -/
example : letI := Ex.ext
    decode [t!"bytes"] (.bytes (be32 64 ++ be32 7 ++ be32 1 ++ [5] ++ List.replicate 31 0)) = .ok (.tuple [.bytes [5]]) ∧
    decode [t!"bytes"] (.bytes (be32 64 ++ be32 8 ++ be32 1 ++ [5] ++ List.replicate 31 0)) = .ok (.tuple [.bytes [5]]) ∧
    (encode [t!"bytes"] (.tuple [.bytes [5]])).map List.length = .ok 96 := by decide +kernel

/-- With `strict=False` a cut string takes what is there: more data change the value. -/
example : letI := Ex.ext
    decode [t!"bytes"] (.bytes (be32 32 ++ be32 2 ++ [5])) false = .ok (.tuple [.bytes [5]]) ∧
    decode [t!"bytes"] (.bytes (be32 32 ++ be32 2 ++ [5, 6])) false = .ok (.tuple [.bytes [5, 6]]) := by decide +kernel

end EthAbi
