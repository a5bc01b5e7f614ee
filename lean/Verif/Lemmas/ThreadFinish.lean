import Verif.Lemmas.ThreadSystem

/-! # Threads: every call finishes -/
namespace EthAbi.Thr
open Spec Spec.Thr

variable [Ext]

theorem run_append (c : System) (a b : List Nat) : c.run (a ++ b) = (c.run a).run b := by
  induction a generalizing c with
  | nil => rfl
  | cons i a ih => exact ih (c.step i)

/-- Steps of other threads leave a thread as it is. -/
theorem run_other {i : Nat} (l : List Nat) : ∀ (c : System), i ∉ l → (c.run l).threads[i]? = c.threads[i]? := by
  induction l with
  | nil => intro c _; rfl
  | cons j l ih =>
    intro c h
    have hj : i ≠ j := fun e => h (e ▸ List.mem_cons_self)
    refine (ih (c.step j) fun hm => h (List.mem_cons_of_mem _ hm)).trans ?_
    cases hc : c.threads[j]? with
    | none => rw [step_none hc]
    | some t => rw [step_some hc]; exact set_other hj _

/-- The first `n` turns of an endless schedule. -/
theorem upTo_add (σ : Nat → Nat) (m n : Nat) :
    upTo σ (m + n) = upTo σ m ++ upTo (fun k => σ (m + k)) n := by
  unfold upTo
  rw [List.range_add, List.map_append, List.map_map]
  rfl

/-- The next turn of thread `i`. -/
theorem next_turn {σ : Nat → Nat} {i : Nat} (hf : ∀ n, ∃ m, n ≤ m ∧ σ m = i) (c : System) :
    ∃ m, (∀ n, ∃ k, n ≤ k ∧ σ (m + 1 + k) = i) ∧
      ∃ c' : System, c.run (upTo σ (m + 1)) = c'.step i ∧ c'.threads[i]? = c.threads[i]? := by
  classical
  have hex : ∃ m, σ m = i := (hf 0).imp fun m h => h.2
  refine ⟨Nat.find hex, fun n => ?_, c.run (upTo σ (Nat.find hex)), ?_, ?_⟩
  · obtain ⟨m, h1, h2⟩ := hf (Nat.find hex + 1 + n)
    exact ⟨m - (Nat.find hex + 1), by omega, by
      rw [show Nat.find hex + 1 + (m - (Nat.find hex + 1)) = m by omega]; exact h2⟩
  · rw [upTo_add, run_append]
    have : upTo (fun k => σ (Nat.find hex + k)) 1 = [i] := by
      unfold upTo
      simp [Nat.find_spec hex]
    rw [this]
    rfl
  · refine run_other _ c fun hm => ?_
    unfold upTo at hm
    obtain ⟨k, hk, hki⟩ := List.mem_map.1 hm
    exact Nat.find_min hex (List.mem_range.1 hk) hki

/-- A call that a thread is in returns or raises. -/
theorem call_finishes {i : Nat} {call : Nat × Op} {todo : List (Nat × Op)}
    {log : List ((Nat × Op) × Res)} : ∀ (p : Prog Res) (σ : Nat → Nat) (c : System),
    (∀ n, ∃ m, n ≤ m ∧ σ m = i) → c.threads[i]? = some ⟨todo, some (call, p), log⟩ →
    ∃ n res, (∀ k, ∃ m, k ≤ m ∧ σ (n + m) = i) ∧
      (c.run (upTo σ n)).threads[i]? = some ⟨todo, none, (call, res) :: log⟩ := by
  intro p
  induction p with
  | ret res =>
    intro σ c hf hc
    obtain ⟨m, hf', c', h1, h2⟩ := next_turn hf c
    rw [hc] at h2
    exact ⟨m + 1, res, hf', by rw [h1, step_some h2]; exact set_self h2 _⟩
  | act f next ih =>
    intro σ c hf hc
    obtain ⟨m, hf', c', h1, h2⟩ := next_turn hf c
    rw [hc] at h2
    obtain ⟨n, res, hn, hr⟩ := ih c'.heap (fun k => σ (m + 1 + k)) (c'.step i) hf'
      (by rw [step_some h2]; exact set_self h2 _)
    refine ⟨m + 1 + n, res, fun k => ?_, ?_⟩
    · obtain ⟨x, hx, hx'⟩ := hn k
      exact ⟨x, hx, by rw [Nat.add_assoc]; exact hx'⟩
    · rw [upTo_add, run_append, h1]; exact hr

/-- A thread makes all its calls. -/
theorem calls_finish {i : Nat} : ∀ (todo : List (Nat × Op)) (log : List ((Nat × Op) × Res))
    (σ : Nat → Nat) (c : System), (∀ n, ∃ m, n ≤ m ∧ σ m = i) →
    c.threads[i]? = some ⟨todo, none, log⟩ →
    ∃ n log', (c.run (upTo σ n)).threads[i]? = some ⟨[], none, log' ++ log⟩ ∧
      (log'.reverse.map (·.1)) = todo := by
  intro todo
  induction todo with
  | nil => intro log σ c _ hc; exact ⟨0, [], hc, rfl⟩
  | cons call todo ih =>
    intro log σ c hf hc
    obtain ⟨m, hf1, c1, h1, h1'⟩ := next_turn hf c
    rw [hc] at h1'
    obtain ⟨n, res, hf2, h2⟩ := call_finishes (program call.1 call.2) (fun k => σ (m + 1 + k)) (c1.step i)
      hf1 (by rw [step_some h1']; exact set_self h1' _)
    obtain ⟨n', log', h3, h4⟩ := ih ((call, res) :: log) (fun k => σ (m + 1 + (n + k))) _ hf2 h2
    refine ⟨m + 1 + (n + n'), log' ++ [(call, res)], ?_, ?_⟩
    · rw [upTo_add, run_append, h1, upTo_add, run_append, h3]
      simp
    · rw [List.reverse_append, List.map_append, h4]; rfl

end EthAbi.Thr
