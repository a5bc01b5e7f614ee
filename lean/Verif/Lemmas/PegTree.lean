import Verif.Spec.Tree
import Verif.Lemmas.Peg

/-!
# The texts of parse trees
-/
namespace EthAbi
namespace Peg
open Spec

/-- A matcher that gives trees of the string it has matched. -/
def Faithful (m : Matcher) : Prop := ∀ e s n r, m e s = some (n, r) → s = n.text ++ r ∧ TextsFit n

theorem before_append (w r : List Char) : before (w ++ r) r = w := by
  simp [before]

theorem text_eq {n : Node} (h : TextsFit n) : leaves n = n.text := by
  cases n; simp only [TextsFit] at h; exact h.1.symm

theorem leaves_mk {name : Option Rule} {kind : Kind} {w : List Char} {ns : List Node} (h : w = leavesAll ns) :
    w = leaves (.mk name kind w ns) := by
  cases ns with
  | nil => rfl
  | cons c cs => exact h

theorem runSeq_fit {m : Matcher} (hm : Faithful m) : ∀ (es : List Expr) {s r : List Char} {ns : List Node},
    runSeq m es s = some (ns, r) → s = leavesAll ns ++ r ∧ AllFit ns
  | [], s, r, ns, h => by
    cases h
    exact ⟨rfl, trivial⟩
  | e :: es, s, r, ns, h => by
    simp only [runSeq] at h
    split at h
    · cases h
    · rename_i n r1 h1
      split at h
      · cases h
      · rename_i ns' r2 h2
        cases h
        obtain ⟨e1, f1⟩ := hm _ _ _ _ h1
        obtain ⟨e2, f2⟩ := runSeq_fit hm es h2
        refine ⟨?_, f1, f2⟩
        rw [leavesAll, text_eq f1, List.append_assoc, ← e2, ← e1]

theorem runOneOf_fit {m : Matcher} (hm : Faithful m) : ∀ (es : List Expr) {s r : List Char} {n : Node},
    runOneOf m es s = some (n, r) → s = n.text ++ r ∧ TextsFit n
  | [], s, r, n, h => by cases h
  | e :: es, s, r, n, h => by
    simp only [runOneOf] at h
    split at h
    · rename_i x hx
      cases h
      exact hm _ _ _ _ hx
    · exact runOneOf_fit hm es h

theorem runMany_fit [Ext] {m : Matcher} (hm : Faithful m) (e : Expr) (min : Nat) (max : Option Nat) :
    ∀ (rounds count : Nat) (s : List Char),
      s = leavesAll (runMany m e min max rounds count s).1 ++ (runMany m e min max rounds count s).2 ∧
        AllFit (runMany m e min max rounds count s).1
  | 0, _, s => ⟨rfl, trivial⟩
  | rounds + 1, count, s => by
    simp only [runMany]
    split
    · exact ⟨rfl, trivial⟩
    · split
      · exact ⟨rfl, trivial⟩
      · rename_i n r h1
        obtain ⟨e1, f1⟩ := hm _ _ _ _ h1
        split
        · refine ⟨?_, f1, trivial⟩
          simp only [leavesAll, text_eq f1, List.append_nil]
          exact e1
        · obtain ⟨e2, f2⟩ := runMany_fit hm e min max rounds (count + 1) r
          refine ⟨?_, f1, f2⟩
          simp only [leavesAll]
          rw [text_eq f1, List.append_assoc, ← e2, ← e1]

theorem rxMatch_fit : ∀ (rx : Rx) {s m r : List Char}, rxMatch rx s = some (m, r) → s = m ++ r
  | [], s, m, r, h => by cases h; rfl
  | (cls, .one) :: rx, s, m, r, h => by
    cases s with
    | nil => simp [rxMatch] at h
    | cons c cs =>
      simp only [rxMatch] at h
      split at h
      · cases hx : rxMatch rx cs with
        | none => rw [hx] at h; cases h
        | some x =>
          rw [hx] at h
          cases h
          rw [List.cons_append, ← rxMatch_fit rx hx]
      · cases h
  | (cls, .star) :: rx, s, m, r, h => by
    simp only [rxMatch] at h
    cases hx : rxMatch rx (s.dropWhile (inClass cls)) with
    | none => rw [hx] at h; cases h
    | some x =>
      rw [hx] at h
      cases h
      rw [List.append_assoc, ← rxMatch_fit rx hx, List.takeWhile_append_dropWhile]
  | (cls, .plus) :: rx, s, m, r, h => by
    simp only [rxMatch] at h
    split at h
    · cases h
    · cases hx : rxMatch rx (s.dropWhile (inClass cls)) with
      | none => rw [hx] at h; cases h
      | some x =>
        rw [hx] at h
        cases h
        rw [List.append_assoc, ← rxMatch_fit rx hx, List.takeWhile_append_dropWhile]

theorem named_fit {n : Node} (r : Rule) (h : TextsFit n) : TextsFit (n.named r) ∧ (n.named r).text = n.text := by
  obtain ⟨name, kind, w, ns⟩ := n
  simp only [TextsFit] at h
  refine ⟨⟨?_, h.2⟩, rfl⟩
  rw [h.1]
  cases ns <;> rfl

theorem run_fit [Ext] : ∀ F, Faithful (run F)
  | 0 => by intro e s n r h; cases h
  | F + 1 => by
    have ih := run_fit F
    intro e s n r h
    cases e with
    | lit l =>
      simp only [run] at h
      split at h
      · rename_i hp
        cases h
        obtain ⟨t, rfl⟩ := hp
        exact ⟨by simp [Node.text], rfl, trivial⟩
      · cases h
    | regex rx =>
      simp only [run] at h
      cases hx : rxMatch rx s with
      | none => rw [hx] at h; cases h
      | some x =>
        rw [hx] at h
        cases h
        exact ⟨rxMatch_fit rx hx, rfl, trivial⟩
    | seq es =>
      rw [run_seq] at h
      cases hx : runSeq (run F) es s with
      | none => rw [hx] at h; cases h
      | some x =>
        rw [hx] at h
        cases h
        obtain ⟨e1, f1⟩ := runSeq_fit ih es hx
        have hb : before s x.2 = leavesAll x.1 := by rw [e1]; simp only [before_append]
        exact ⟨by simp only [Node.text]; rw [hb]; exact e1, leaves_mk hb, f1⟩
    | oneOf es =>
      rw [run_oneOf] at h
      cases hx : runOneOf (run F) es s with
      | none => rw [hx] at h; cases h
      | some x =>
        rw [hx] at h
        cases h
        obtain ⟨e1, f1⟩ := runOneOf_fit ih es hx
        exact ⟨e1, leaves_mk (by simp [leavesAll, text_eq f1]), f1, trivial⟩
    | quant e min max =>
      obtain ⟨e1, f1⟩ := runMany_fit ih e min max (s.length + 1) 0 s
      simp only [run] at h
      split at h
      · cases h
        have hb : before s (runMany (run F) e min max (s.length + 1) 0 s).2 =
            leavesAll (runMany (run F) e min max (s.length + 1) 0 s).1 := by
          conv => lhs; arg 1; rw [e1]
          exact before_append _ _
        exact ⟨by simp only [Node.text]; rw [hb]; exact e1, leaves_mk hb, f1⟩
      · cases h
    | ref rule =>
      have key : ∀ e', (run F e' s).map (fun x => (x.1.named rule, x.2)) = some (n, r) → s = n.text ++ r ∧ TextsFit n := by
        intro e' h
        cases hx : run F e' s with
        | none => rw [hx] at h; cases h
        | some x =>
          rw [hx] at h
          cases h
          obtain ⟨e1, f1⟩ := ih _ _ _ _ hx
          obtain ⟨f2, t2⟩ := named_fit rule f1
          exact ⟨by rw [t2]; exact e1, f2⟩
      cases rule
      case components => exact ih _ _ _ _ h
      case base => exact ih _ _ _ _ h
      all_goals exact key _ h

end Peg
end EthAbi
