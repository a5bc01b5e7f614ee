import Verif.Spec.Frames
import Mathlib.Tactic.Linarith
import Mathlib.Tactic.Ring
import Mathlib.Algebra.BigOperators.Group.List.Basic

/-! # The stream with frames -/
namespace EthAbi
open Spec

/-- What holds of a stream after any calls: positions are not too large, and the total offset is that of the frames. -/
structure FrameStream.Sound (st : FrameStream) : Prop where
  pos : st.pos ≤ ssizeMax
  data : st.data.length ≤ ssizeMax
  frames : ∀ f ∈ st.frames, f.2 ≤ ssizeMax
  total : st.total = (st.frames.map (·.1)).sum

namespace FrameStream

theorem new_sound {d : Bytes} (h : d.length ≤ ssizeMax) : (new d).Sound :=
  ⟨Nat.zero_le _, h, by simp [new], rfl⟩

/-- The parts of the stream that `seek` and `read` leave alone. -/
def Same (st st' : FrameStream) : Prop :=
  st'.data = st.data ∧ st'.frames = st.frames ∧ st'.total = st.total ∧ st'.pos ≤ ssizeMax

theorem Same.sound {st st' : FrameStream} (h : Same st st') (hs : st.Sound) : st'.Sound := by
  obtain ⟨h1, h2, h3, h4⟩ := h
  exact ⟨h4, by rw [h1]; exact hs.data, by rw [h2]; exact hs.frames, by rw [h3, h2]; exact hs.total⟩

theorem same_self {st : FrameStream} (h : st.pos ≤ ssizeMax) : Same st st := ⟨rfl, rfl, rfl, h⟩

theorem seek_same (p w : Int) {st : FrameStream} (hs : st.pos ≤ ssizeMax) : Same st (st.seek p w).2 := by
  unfold seek
  split
  · exact same_self hs
  · split
    · exact same_self hs
    · split
      · exact same_self hs
      · generalize (if w = 0 then (0 : Int) else if w = 1 then (st.pos : Int) else (st.data.length : Int)) = base
        dsimp only
        by_cases h : (ssizeMax : Int) < base + p
        · rw [if_pos h]; exact same_self hs
        · rw [if_neg h]; exact ⟨rfl, rfl, rfl, by dsimp only; omega⟩

theorem seekInFrame_snd (p w : Int) (st : FrameStream) : (st.seekInFrame p w).2 = (st.seek (st.total + p) w).2 := by
  unfold seekInFrame
  split <;> next h => rw [h]

theorem read_same (n : Option Int) {st : FrameStream} (hs : st.pos ≤ ssizeMax) (hd : st.data.length ≤ ssizeMax) :
    Same st (st.read n).2 := by
  have hle : ∀ b : Bytes, b.length ≤ (st.data.drop st.pos).length → st.pos + b.length ≤ ssizeMax := by
    intro b hb
    rw [List.length_drop] at hb
    omega
  unfold read
  dsimp only
  split
  · exact ⟨rfl, rfl, rfl, hle _ le_rfl⟩
  · split
    · exact same_self hs
    · refine ⟨rfl, rfl, rfl, hle _ ?_⟩
      split
      · exact le_rfl
      · exact (List.take_sublist _ _).length_le

/-- `seek(pos)` with a position that is possible. -/
theorem seek_start {p : Int} (h0 : 0 ≤ p) (h1 : p ≤ ssizeMax) (st : FrameStream) :
    st.seek p 0 = (.ok (.position p.toNat), { st with pos := p.toNat }) := by
  unfold seek
  rw [if_neg (by omega), if_neg (by simp), if_neg (by omega)]
  simp only [if_true, zero_add]
  rw [if_neg (by omega)]

theorem pushFrame_data (k : Int) (st : FrameStream) (hs : st.pos ≤ ssizeMax) :
    (st.pushFrame k).2.data = st.data ∧ (st.pushFrame k).2.frames = (k, st.pos) :: st.frames ∧
      (st.pushFrame k).2.total = st.total + k ∧ (st.pushFrame k).2.pos ≤ ssizeMax := by
  unfold pushFrame
  dsimp only
  rw [seekInFrame_snd]
  exact seek_same _ _ (st := ⟨st.data, st.pos, (k, st.pos) :: st.frames, st.total + k⟩) hs

theorem pushFrame_sound (k : Int) {st : FrameStream} (hs : st.Sound) : (st.pushFrame k).2.Sound := by
  obtain ⟨h1, h2, h3, h4⟩ := pushFrame_data k st hs.pos
  refine ⟨h4, by rw [h1]; exact hs.data, ?_, ?_⟩
  · rw [h2]
    intro f hf
    rcases List.mem_cons.1 hf with rfl | hf
    · exact hs.pos
    · exact hs.frames f hf
  · rw [h2, h3, hs.total, List.map_cons, List.sum_cons]
    exact add_comm _ _

theorem popFrame_cons {st : FrameStream} {k : Int} {r : Nat} {fs : List (Int × Nat)} (h : st.frames = (k, r) :: fs)
    (hr : r ≤ ssizeMax) : st.popFrame = (.ok .nothing, ⟨st.data, r, fs, st.total - k⟩) := by
  unfold popFrame
  rw [h]
  dsimp only
  rw [seek_start (by omega) (by exact_mod_cast hr)]
  simp

theorem popFrame_sound {st : FrameStream} (hs : st.Sound) : st.popFrame.2.Sound := by
  cases hf : st.frames with
  | nil =>
    have : st.popFrame = (.error .indexError, st) := by unfold popFrame; rw [hf]
    rw [this]
    exact hs
  | cons f fs =>
    obtain ⟨k, r⟩ := f
    have hr := hs.frames (k, r) (by simp [hf])
    rw [popFrame_cons hf hr]
    refine ⟨hr, hs.data, fun f h => hs.frames f (by simp [hf, h]), ?_⟩
    have := hs.total
    rw [hf, List.map_cons, List.sum_cons] at this
    show st.total - k = (fs.map (·.1)).sum
    simp only at this
    omega

theorem step_sound (c : FrameCall) {st : FrameStream} (hs : st.Sound) : (st.step c).2.Sound := by
  cases c with
  | tell => exact hs
  | read n => exact (read_same n hs.pos hs.data).sound hs
  | seek p w => exact (seek_same p w hs.pos).sound hs
  | seekInFrame p w =>
    show (st.seekInFrame p w).2.Sound
    rw [seekInFrame_snd]
    exact (seek_same _ w hs.pos).sound hs
  | pushFrame k => exact pushFrame_sound k hs
  | popFrame => exact popFrame_sound hs

theorem run_sound (cs : List FrameCall) {st : FrameStream} (hs : st.Sound) : (st.run cs).Sound := by
  induction cs generalizing st with
  | nil => exact hs
  | cons c cs ih => exact ih (step_sound c hs)

theorem run_append (st : FrameStream) (a b : List FrameCall) : st.run (a ++ b) = (st.run a).run b := by
  induction a generalizing st with
  | nil => rfl
  | cons c a ih => exact ih _

theorem step_data (c : FrameCall) {st : FrameStream} (hs : st.Sound) : (st.step c).2.data = st.data := by
  cases c with
  | tell => rfl
  | read n => exact (read_same n hs.pos hs.data).1
  | seek p w => exact (seek_same p w hs.pos).1
  | seekInFrame p w =>
    show (st.seekInFrame p w).2.data = _
    rw [seekInFrame_snd]
    exact (seek_same _ w hs.pos).1
  | pushFrame k => exact (pushFrame_data k st hs.pos).1
  | popFrame =>
    show st.popFrame.2.data = st.data
    cases hf : st.frames with
    | nil => unfold popFrame; rw [hf]
    | cons f fs =>
      obtain ⟨k, r⟩ := f
      rw [popFrame_cons hf (hs.frames (k, r) (by simp [hf]))]

theorem run_data (cs : List FrameCall) {st : FrameStream} (hs : st.Sound) : (st.run cs).data = st.data := by
  induction cs generalizing st with
  | nil => rfl
  | cons c cs ih => exact (ih (step_sound c hs)).trans (step_data c hs)

theorem step_frames (c : FrameCall) {st : FrameStream} (hs : st.Sound) :
    (st.step c).2.frames.map (·.1) = openAfter (st.frames.map (·.1)) [c] := by
  cases c with
  | tell => rfl
  | read n => exact congrArg _ (read_same n hs.pos hs.data).2.1
  | seek p w => exact congrArg _ (seek_same p w hs.pos).2.1
  | seekInFrame p w =>
    show (st.seekInFrame p w).2.frames.map _ = _
    rw [seekInFrame_snd]
    exact congrArg _ (seek_same _ w hs.pos).2.1
  | pushFrame k =>
    show (st.pushFrame k).2.frames.map _ = _
    rw [(pushFrame_data k st hs.pos).2.1]
    rfl
  | popFrame =>
    show st.popFrame.2.frames.map _ = _
    cases hf : st.frames with
    | nil =>
      unfold popFrame
      rw [hf]
      simp [openAfter, hf]
    | cons f fs =>
      obtain ⟨k, r⟩ := f
      rw [popFrame_cons hf (hs.frames (k, r) (by simp [hf]))]
      rfl

theorem openAfter_append (o : List Int) (a b : List FrameCall) :
    openAfter o (a ++ b) = openAfter (openAfter o a) b := by
  induction a generalizing o with
  | nil => rfl
  | cons c a ih => cases c <;> exact ih _

theorem run_frames (cs : List FrameCall) {st : FrameStream} (hs : st.Sound) :
    (st.run cs).frames.map (·.1) = openAfter (st.frames.map (·.1)) cs := by
  induction cs generalizing st with
  | nil => rfl
  | cons c cs ih =>
    show ((st.step c).2.run cs).frames.map _ = openAfter _ ([c] ++ cs)
    rw [ih (step_sound c hs), step_frames c hs, openAfter_append]

/-- Closed calls leave the frames and the total offset as they were. -/
theorem paired_same {cs : List FrameCall} (h : Closed cs) : ∀ {st : FrameStream}, st.Sound → Same st (st.run cs) := by
  induction h with
  | nil => intro st hs; exact same_self hs.pos
  | tell => intro st hs; exact same_self hs.pos
  | read n => intro st hs; exact read_same n hs.pos hs.data
  | seek p w => intro st hs; exact seek_same p w hs.pos
  | seekInFrame p w =>
    intro st hs
    show Same st (st.seekInFrame p w).2
    rw [seekInFrame_snd]
    exact seek_same _ w hs.pos
  | @frame k body _ ih =>
    intro st hs
    obtain ⟨h1, h2, h3, _⟩ := pushFrame_data k st hs.pos
    have hp := pushFrame_sound k hs
    obtain ⟨b1, b2, b3, _⟩ := ih hp
    show Same st ((st.pushFrame k).2.run (body ++ [.popFrame]))
    rw [run_append]
    show Same st ((st.pushFrame k).2.run body).popFrame.2
    rw [popFrame_cons (b2.trans h2) hs.pos]
    exact ⟨b1.trans h1, rfl, by show _ - k = _; rw [b3, h3]; ring, hs.pos⟩
  | append _ _ iha ihb =>
    intro st hs
    rw [run_append]
    obtain ⟨a1, a2, a3, a4⟩ := iha hs
    obtain ⟨b1, b2, b3, b4⟩ := ihb ((iha hs).sound hs)
    exact ⟨b1.trans a1, b2.trans a2, b3.trans a3, b4⟩

/-- A frame, whatever is done in it, leaves the stream as it was. -/
theorem frame_same {body : List FrameCall} (h : Closed body) (k : Int) {st : FrameStream} (hs : st.Sound) :
    st.run (.pushFrame k :: body ++ [.popFrame]) = st := by
  obtain ⟨h1, h2, h3, _⟩ := pushFrame_data k st hs.pos
  have hp := pushFrame_sound k hs
  obtain ⟨b1, b2, b3, _⟩ := paired_same h hp
  show (st.pushFrame k).2.run (body ++ [.popFrame]) = st
  rw [run_append]
  show ((st.pushFrame k).2.run body).popFrame.2 = st
  rw [popFrame_cons (b2.trans h2) hs.pos, b1, h1, b3, h3]
  obtain ⟨d, p, f, t⟩ := st
  simp

end FrameStream
end EthAbi
