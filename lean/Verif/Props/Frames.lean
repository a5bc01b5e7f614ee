import Verif.Lemmas.OpenFrames

/-!
# C88: the stream that decoders read from

The calls are on a new stream of the data `d`; after each of them, whatever it raised, the next one is made.  `Spec.openFrames
cs` are the offsets of the frames that the calls `cs` have opened and not closed.
-/
namespace EthAbi
open Spec

/-- **C88, frames.**  A frame that is opened at any time and closed again, whatever is done in between as long as every frame
opened there is closed there, leaves no trace: cursor, frames and all are as before. -/
theorem C88_frame {d : Bytes} (hd : d.length ≤ ssizeMax) (cs : List FrameCall) (k : Int) {body : List FrameCall}
    (hb : Closed body) :
    (FrameStream.new d).run (cs ++ (.pushFrame k :: body ++ [.popFrame])) = (FrameStream.new d).run cs := by
  rw [FrameStream.run_append]
  exact FrameStream.frame_same hb k (FrameStream.run_sound cs (FrameStream.new_sound hd))

/-- **C88, positions.**  `seek_in_frame(p)` goes to the place `p` behind the sum of the offsets of the open frames; it raises
`ValueError` if that is negative and `OverflowError` if it is beyond what a position can be, and then nothing changes. -/
theorem C88_seek {d : Bytes} (hd : d.length ≤ ssizeMax) (cs : List FrameCall) (p : Int) :
    let st := (FrameStream.new d).run cs
    let place := (openFrames cs).sum + p
    (0 ≤ place → place ≤ maxPosition →
      st.step (.seekInFrame p 0) = (.ok .nothing, { st with pos := place.toNat })) ∧
    (place < 0 → -maxPosition - 1 ≤ place → st.step (.seekInFrame p 0) = (.error .valueError, st)) ∧
    (maxPosition < place ∨ place < -maxPosition - 1 → st.step (.seekInFrame p 0) = (.error .overflowError, st)) := by
  have hs := FrameStream.run_sound cs (FrameStream.new_sound hd)
  have hf : ((FrameStream.new d).run cs).frames.map (·.1) = openFrames cs :=
    FrameStream.run_frames cs (FrameStream.new_sound hd)
  have ht := hs.total
  rw [hf] at ht
  generalize (FrameStream.new d).run cs = st at *
  have hm : maxPosition = (ssizeMax : Int) := rfl
  dsimp only
  show _ ∧ (_ → _ → st.seekInFrame p 0 = _) ∧ (_ → st.seekInFrame p 0 = _)
  refine ⟨fun h0 h1 => ?_, fun h0 h1 => ?_, fun h0 => ?_⟩
  · show st.seekInFrame p 0 = _
    unfold FrameStream.seekInFrame
    have : st.seek (st.total + p) 0 = (.ok (.position ((openFrames cs).sum + p).toNat),
        { st with pos := ((openFrames cs).sum + p).toNat }) := by
      rw [← ht]
      exact FrameStream.seek_start (by omega) (by omega) st
    rw [this]
  · have : st.seek (st.total + p) 0 = (.error .valueError, st) := by
      unfold FrameStream.seek
      rw [ht, if_neg (by omega), if_neg (by simp), if_pos ⟨rfl, h0⟩]
    unfold FrameStream.seekInFrame
    rw [this]
  · have : st.seek (st.total + p) 0 = (.error .overflowError, st) := by
      unfold FrameStream.seek
      rw [ht, if_pos (by omega)]
    unfold FrameStream.seekInFrame
    rw [this]

/-- **C88, reading.**  `seek_in_frame(p)` and `read(n)` give the at most `n` bytes of the data at that place, and move the
cursor behind them. -/
theorem C88_read {d : Bytes} (hd : d.length ≤ ssizeMax) (cs : List FrameCall) (p : Int)
    (h0 : 0 ≤ (openFrames cs).sum + p) (h1 : (openFrames cs).sum + p ≤ maxPosition) (n : Nat) (hn : n ≤ ssizeMax) :
    let st := (FrameStream.new d).run (cs ++ [.seekInFrame p 0])
    let bytes := (d.drop ((openFrames cs).sum + p).toNat).take n
    (st.step (.read (some n))).1 = .ok (.bytes bytes) ∧
      (st.step (.read (some n))).2.pos = ((openFrames cs).sum + p).toNat + bytes.length := by
  have h2 := (C88_seek hd cs p).1 h0 h1
  have h3 : (FrameStream.new d).run (cs ++ [.seekInFrame p 0]) =
      { (FrameStream.new d).run cs with pos := ((openFrames cs).sum + p).toNat } := by
    rw [FrameStream.run_append]
    show (((FrameStream.new d).run cs).step (.seekInFrame p 0)).2 = _
    rw [h2]
  have h4 : ((FrameStream.new d).run cs).data = d := FrameStream.run_data cs (FrameStream.new_sound hd)
  dsimp only
  rw [h3]
  simp only [FrameStream.step, FrameStream.read, h4]
  rw [if_neg (by omega), if_neg (by omega)]
  exact ⟨rfl, rfl⟩

/-- **C88, closing.**  `pop_frame()` raises `IndexError` exactly if no frame is open, and then nothing changes; otherwise it
raises nothing. -/
theorem C88_pop {d : Bytes} (hd : d.length ≤ ssizeMax) (cs : List FrameCall) :
    let st := (FrameStream.new d).run cs
    (openFrames cs = [] → st.step .popFrame = (.error .indexError, st)) ∧
    (openFrames cs ≠ [] → (st.step .popFrame).1 = .ok .nothing) := by
  have hs := FrameStream.run_sound cs (FrameStream.new_sound hd)
  have hf : ((FrameStream.new d).run cs).frames.map (·.1) = openFrames cs :=
    FrameStream.run_frames cs (FrameStream.new_sound hd)
  generalize (FrameStream.new d).run cs = st at *
  dsimp only
  rw [← hf]
  show (_ → st.popFrame = _) ∧ (_ → st.popFrame.1 = _)
  cases h : st.frames with
  | nil => exact ⟨fun _ => by unfold FrameStream.popFrame; rw [h], fun h => absurd rfl h⟩
  | cons f fs =>
    obtain ⟨k, r⟩ := f
    exact ⟨fun h => by simp at h, fun _ => by rw [FrameStream.popFrame_cons h (hs.frames (k, r) (by simp [h]))]⟩

/-- **C88, opening.**  `push_frame(k)` moves the cursor to the sum of the offsets of the open frames, `k` included.  If that
is no position it raises, and the frame is open nevertheless: a `pop_frame()` is needed. -/
theorem C88_push {d : Bytes} (hd : d.length ≤ ssizeMax) (cs : List FrameCall) (k : Int) :
    let st := (FrameStream.new d).run cs
    let place := (openFrames cs).sum + k
    (0 ≤ place → place ≤ maxPosition →
      (st.step (.pushFrame k)).1 = .ok .nothing ∧ (st.step (.pushFrame k)).2.pos = place.toNat) ∧
    (place < 0 ∨ maxPosition < place →
      (∃ e, (st.step (.pushFrame k)).1 = .error e ∧ (e = .valueError ∨ e = .overflowError)) ∧
      (st.step (.pushFrame k)).2 ≠ st ∧ ((st.step (.pushFrame k)).2.step .popFrame).2 = st) := by
  have hs := FrameStream.run_sound cs (FrameStream.new_sound hd)
  have hf : ((FrameStream.new d).run cs).frames.map (·.1) = openFrames cs :=
    FrameStream.run_frames cs (FrameStream.new_sound hd)
  have ht := hs.total
  rw [hf] at ht
  generalize (FrameStream.new d).run cs = st at *
  have hm : maxPosition = (ssizeMax : Int) := rfl
  dsimp only
  have hpush : st.step (.pushFrame k) =
      FrameStream.seekInFrame 0 0 ⟨st.data, st.pos, (k, st.pos) :: st.frames, st.total + k⟩ := rfl
  refine ⟨fun h0 h1 => ?_, fun h0 => ⟨?_, ?_, ?_⟩⟩
  · rw [hpush]
    unfold FrameStream.seekInFrame
    rw [FrameStream.seek_start (by show 0 ≤ st.total + k + 0; omega) (by show st.total + k + 0 ≤ _; omega)]
    refine ⟨rfl, ?_⟩
    show (st.total + k + 0).toNat = _
    rw [ht, add_zero]
  · rw [hpush]
    unfold FrameStream.seekInFrame FrameStream.seek
    dsimp only
    split
    · next hc =>
      split at hc
      · simp at hc
      · rw [if_neg (by simp), if_pos ⟨rfl, by omega⟩] at hc; simp at hc
    · next e _ hc =>
      split at hc
      · simp only [Prod.mk.injEq, Except.error.injEq] at hc; exact ⟨_, rfl, .inr hc.1.symm⟩
      · rw [if_neg (by simp), if_pos ⟨rfl, by omega⟩] at hc
        simp only [Prod.mk.injEq, Except.error.injEq] at hc
        exact ⟨_, rfl, .inl hc.1.symm⟩
  · intro h
    have := (FrameStream.pushFrame_data k st hs.pos).2.1
    have h' : (st.pushFrame k).2 = st := h
    rw [h'] at this
    have := congrArg List.length this
    simp at this
  · exact FrameStream.frame_same .nil k hs

/-- **C88, the library's own calls.**  The methods that the decoders of the other theorems call are these, for offsets that
are not negative: same outcome, same stream. -/
theorem C88_library (st : Stream) (full : Stream → FrameStream)
    (hfull : ∀ st, full st = ⟨st.data, st.pos, st.frames.map (fun f => ((f.1 : Int), f.2)), st.total⟩) (n : Nat) :
    (match st.read n with
      | .ok (b, st') => (full st).step (.read (some n)) = (.ok (.bytes b), full st')
      | .error e => (full st).step (.read (some n)) = (.error e, full st)) ∧
    (match st.seekInFrame n with
      | .ok st' => (full st).step (.seekInFrame n 0) = (.ok .nothing, full st')
      | .error e => (full st).step (.seekInFrame n 0) = (.error e, full st)) ∧
    (match st.pushFrame n with
      | .ok st' => (full st).step (.pushFrame n) = (.ok .nothing, full st')
      | .error e => ((full st).step (.pushFrame n)).1 = .error e) ∧
    (st.total = (st.frames.map (·.1)).sum →
      match st.popFrame with
      | .ok st' => (full st).step .popFrame = (.ok .nothing, full st')
      | .error e => ((full st).step .popFrame).1 = .error e) := by
  have hseek : ∀ (s : Stream) (m : Nat), (match s.seek m with
      | .ok st' => (full s).seek m 0 = (.ok (.position m), full st')
      | .error e => (full s).seek m 0 = (.error e, full s)) := by
    intro s m
    unfold Stream.seek
    by_cases h : ssizeMax < m
    · rw [if_pos h]
      unfold FrameStream.seek
      rw [if_pos (by omega)]
    · rw [if_neg h]
      rw [FrameStream.seek_start (by omega) (by omega)]
      simp [hfull]
  have hin : ∀ (s : Stream) (m : Nat), (match s.seekInFrame m with
      | .ok st' => (full s).seekInFrame m 0 = (.ok .nothing, full st')
      | .error e => (full s).seekInFrame m 0 = (.error e, full s)) := by
    intro s m
    have h := hseek s (s.total + m)
    unfold Stream.seekInFrame FrameStream.seekInFrame
    have ht : (full s).total + (m : Int) = ((s.total + m : Nat) : Int) := by rw [hfull]; push_cast; rfl
    rw [ht]
    cases hc : s.seek (s.total + m) with
    | ok s' => rw [hc] at h; simp only at h ⊢; rw [h]
    | error e => rw [hc] at h; simp only at h ⊢; rw [h]
  refine ⟨?_, hin st n, ?_, fun htot => ?_⟩
  · unfold Stream.read
    simp only [FrameStream.step, FrameStream.read]
    by_cases h : ssizeMax < n
    · rw [if_pos h]
      simp only
      rw [if_pos (by omega)]
    · rw [if_neg h]
      simp only
      rw [if_neg (by omega), if_neg (by omega)]
      simp [hfull]
  · have h := hin ⟨st.data, st.pos, (n, st.pos) :: st.frames, st.total + n⟩ 0
    have he : (full st).step (.pushFrame n) =
        (full ⟨st.data, st.pos, (n, st.pos) :: st.frames, st.total + n⟩).seekInFrame 0 0 := by
      simp only [FrameStream.step, FrameStream.pushFrame, hfull]
      push_cast
      rfl
    rw [he]
    unfold Stream.pushFrame
    cases hc : Stream.seekInFrame ⟨st.data, st.pos, (n, st.pos) :: st.frames, st.total + n⟩ 0 with
    | ok s' => rw [hc] at h; exact h
    | error e =>
      rw [hc] at h
      simp only at h ⊢
      have h : FrameStream.seekInFrame 0 0 (full ⟨st.data, st.pos, (n, st.pos) :: st.frames, st.total + n⟩) = _ := h
      rw [h]
  · have hstep : (full st).step .popFrame = (full st).popFrame := rfl
    rw [hstep]
    unfold Stream.popFrame
    cases hf : st.frames with
    | nil =>
      simp only
      unfold FrameStream.popFrame
      simp [hfull, hf]
    | cons f fs =>
      obtain ⟨k, r⟩ := f
      simp only
      have hk : k ≤ st.total := by rw [htot, hf]; simp
      have h := hseek ⟨st.data, st.pos, fs, st.total - k⟩ r
      have he : full ⟨st.data, st.pos, fs, st.total - k⟩ =
          ⟨st.data, st.pos, fs.map (fun f => ((f.1 : Int), f.2)), (st.total : Int) - k⟩ := by
        rw [hfull]
        simp only [FrameStream.mk.injEq, true_and]
        omega
      rw [he] at h
      have hp : (full st).popFrame = match FrameStream.seek r 0
          ⟨st.data, st.pos, fs.map (fun f => ((f.1 : Int), f.2)), (st.total : Int) - k⟩ with
        | (.ok _, st) => (.ok .nothing, st)
        | (.error e, st) => (.error e, st) := by
        unfold FrameStream.popFrame
        rw [hfull]
        simp only [hf, List.map_cons]
        cases FrameStream.seek r 0
          ⟨st.data, st.pos, fs.map (fun f => ((f.1 : Int), f.2)), (st.total : Int) - k⟩ with
        | mk a b => cases a <;> rfl
      rw [hp]
      cases hc : Stream.seek ⟨st.data, st.pos, fs, st.total - k⟩ r with
      | ok s' => rw [hc] at h; simp only at h ⊢; rw [h]
      | error e => rw [hc] at h; simp only at h ⊢; rw [h]

/-- The frames of the docstring: `(int,(int,int[]))`.  Object A is at 64, object B at 64 in its frame. -/
example : Closed [.read (some 32), .pushFrame 64, .seekInFrame 0 0, .read (some 32), .popFrame, .tell] :=
  .append (.read (some 32)) (.append (.frame 64 (.append (.seekInFrame 0 0) (.read (some 32)))) .tell)

example : openFrames [.read (some 32), .pushFrame 64, .read (some 32), .pushFrame 64] = [64, 64] ∧
    (openFrames [.read (some 32), .pushFrame 64, .read (some 32), .pushFrame 64]).sum = 128 := by decide

/-- A frame before the start of the data: `push_frame` raises, and the frame is open. -/
example : ((FrameStream.new [1, 2]).step (.pushFrame (-1))).1 = .error .valueError ∧
    openFrames [.pushFrame (-1)] = [-1] := by decide

end EthAbi
