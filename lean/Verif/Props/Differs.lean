import Verif.Lemmas.Differs
import Verif.Lemmas.Pieces
import Verif.Props.Lengths

/-! # C87: a change in one place of the argument changes one place of the encoding -/
namespace EthAbi
open Spec

theorem differs_nonempty {pk : Bool} {l : Ty} {ts : List Ty} {args args' u u' : PyVal} {n : Nat}
    (hd : Differs pk l u u' (.tuple ts) args args' n) : ts ≠ [] := by
  rintro rfl
  generalize hx : Ty.tuple [] = t at hd
  cases hd with
  | word hw => subst hx; cases hw
  | bytes => cases hx
  | string => cases hx
  | sized => cases hx
  | dyn => cases hx
  | tuple => simp at hx

/-- Either encoder. -/
theorem onePiece_encode [Ext] (pk : Bool) {types : List TypeStr} {ts : List Ty} (hT : Names types ts) {l : Ty}
    {args args' u u' : PyVal} {n : Nat} (hd : Differs pk l u u' (.tuple ts) args args' n) {b b' : Bytes}
    (h : (regBy pk).encode types args = .ok b) (h' : (regBy pk).encode types args' = .ok b') :
    OnePiece pk l u u' n b b' := by
  obtain ⟨ts1, vs, h1, h2, _, _⟩ := encode_ok h
  obtain ⟨ts2, vs', h3, h4, _, _⟩ := encode_ok h'
  rw [encode_eq pk hT h2] at h
  rw [encode_eq pk hT h4] at h'
  exact differs_call hd ⟨differs_nonempty hd, Ty.allValid_iff.2 (supportedAll_valid hT)⟩ b b' h h'

/-- `encode_packed` of one argument. -/
theorem packed_single [Ext] {s : TypeStr} {t : Ty} (h : Supported s t) {v : PyVal} {b : Bytes}
    (hb : (encOf true t).call v = .ok b) : encodePacked [s] (.list [v]) = .ok b := by
  have hg := encOf_good true t (supported_valid h)
  have h1 : encodePacked [s] (.list [v]) = _ := encode_one true h v
  rw [h1, hg.callVal v b hb, hb]
  rfl

/-- **C87.**  If two accepted arguments differ in one place, a number, an address, a boolean, or a byte string or text of
the same length, anywhere in nested arrays and tuples, then their encodings have the same length and differ at most in the
bytes of this place, which are those that end the encoding of the value by itself. -/
theorem C87_encode [Ext] {types : List TypeStr} {ts : List Ty} (hT : Names types ts) {l : Ty} {args args' u u' : PyVal}
    {n : Nat} (hd : Differs false l u u' (.tuple ts) args args' n) {b b' : Bytes} (h : encode types args = .ok b)
    (h' : encode types args' = .ok b') :
    ∃ before after front w w', b = before ++ w ++ after ∧ b' = before ++ w' ++ after ∧ w.length = n ∧ w'.length = n ∧
      ∀ s, Supported s l → encode [s] (.list [u]) = .ok (front ++ w) ∧ encode [s] (.list [u']) = .ok (front ++ w') := by
  obtain ⟨p, q, f, w, w', h1, h2, h3, h4, h5, h6⟩ := onePiece_encode false hT hd h h'
  refine ⟨p, q, (if l.dynamic then be32 32 else []) ++ f, w, w', h1, h2, h3, h4, fun s hs => ⟨?_, ?_⟩⟩
  · exact (single_iff hs u _).2 ⟨_, h5, by simp⟩
  · exact (single_iff hs u' _).2 ⟨_, h6, by simp⟩

/-- **C87.**  The same for `encode_packed`. -/
theorem C87_packed [Ext] {types : List TypeStr} {ts : List Ty} (hT : Names types ts) {l : Ty} {args args' u u' : PyVal}
    {n : Nat} (hd : Differs true l u u' (.tuple ts) args args' n) {b b' : Bytes} (h : encodePacked types args = .ok b)
    (h' : encodePacked types args' = .ok b') :
    ∃ before after w w', b = before ++ w ++ after ∧ b' = before ++ w' ++ after ∧ w.length = n ∧ w'.length = n ∧
      ∀ s, Supported s l → encodePacked [s] (.list [u]) = .ok w ∧ encodePacked [s] (.list [u']) = .ok w' := by
  obtain ⟨p, q, f, w, w', h1, h2, h3, h4, h5, h6⟩ := onePiece_encode true hT hd h h'
  refine ⟨p, q, w, w', h1, h2, h3, h4, fun s hs => ?_⟩
  have hf : f = [] := by
    have ht := takes_call true l (supported_valid hs) u _ h5
    have hn : Takes true l u n := by
      clear h1 h2 h3 h4 h5 h6 ht h h'
      generalize Ty.tuple ts = t at hd
      induction hd with
      | word hw => cases hw <;> constructor
      | bytes h1 h2 => subst h1; exact .bytes h2
      | string h1 h2 _ h3 => subst h1 h2; exact .string h3
      | sized _ _ _ ih => exact ih
      | dyn _ _ _ ih => exact ih
      | tuple _ _ _ _ ih => exact ih
    have := C85_unique (pk := true) (.cons hs .nil) (.cons ht .nil) (.cons hn .nil)
    rw [List.length_append] at this
    exact List.eq_nil_of_length_eq_zero (by omega)
  subst hf
  exact ⟨packed_single hs h5, packed_single hs h6⟩

/-- **C87.**  If `encode` accepts an argument, it also accepts the one with another value in this place, if it accepts that
value by itself.  (The encoding is shorter than `2^256` bytes.) -/
theorem C87_accepts [Ext] {types : List TypeStr} {ts : List Ty} (hT : Names types ts) {l : Ty} {args args' u u' : PyVal}
    {n : Nat} (hd : Differs false l u u' (.tuple ts) args args' n) {vs : List PyVal} (ha : IsListOf args' vs) {b : Bytes}
    (h : encode types args = .ok b) (hb : b.length < 2 ^ 256) {s : TypeStr} (hs : Supported s l) {c : Bytes}
    (hc : encode [s] (.list [u']) = .ok c) : ∃ b', encode types args' = .ok b' := by
  obtain ⟨_, _, _, h2, _, _⟩ := encode_ok (pk := false) h
  have h : (regBy false).encode types args = .ok b := h
  rw [encode_eq false hT h2] at h
  have h4 : listOrTuple? args' = some vs := by cases ha <;> rfl
  obtain ⟨c', hc', _⟩ := (single_iff hs u' c).1 hc
  obtain ⟨b', hb'⟩ := differs_accepted hd ⟨c', hc'⟩ ⟨differs_nonempty hd, Ty.allValid_iff.2 (supportedAll_valid hT)⟩ b h hb
  exact ⟨b', (encode_eq false hT h4).trans hb'⟩

/-- **C87.**  In particular one number in an argument is one word of the encoding. -/
theorem C87_word [Ext] {types : List TypeStr} {ts : List Ty} (hT : Names types ts) {l : Ty} {k : Nat} (hl : IsWord l k)
    {args args' u u' : PyVal} {n : Nat} (hd : Differs false l u u' (.tuple ts) args args' n) {b b' : Bytes}
    (h : encode types args = .ok b) (h' : encode types args' = .ok b') {s : TypeStr} (hs : Supported s l) :
    ∃ before after w w', b = before ++ w ++ after ∧ b' = before ++ w' ++ after ∧ w.length = 32 ∧ w'.length = 32 ∧
      encode [s] (.list [u]) = .ok w ∧ encode [s] (.list [u']) = .ok w' := by
  obtain ⟨p, q, f, w, w', h1, h2, h3, h4, h5⟩ := C87_encode hT hd h h'
  have hn : n = 32 := by
    clear h1 h2 h3 h4 h5 h h'
    generalize Ty.tuple ts = t at hd
    induction hd with
    | word => rfl
    | bytes h => subst h; cases hl
    | string h => subst h; cases hl
    | sized _ _ _ ih => exact ih
    | dyn _ _ _ ih => exact ih
    | tuple _ _ _ _ ih => exact ih
  subst hn
  obtain ⟨h6, h7⟩ := h5 s hs
  have hlen : f = [] := by
    have ht := C85_encode (ts := [l]) (.cons hs .nil) (.list [u]) h6
    have : TakesAll false [l] [u] 32 := by
      have : TakesAll false [l] [u] (pointerWidth false l + 32 + 0) := .cons (by cases hl <;> constructor) .nil
      cases hl <;> exact this
    have := C85_unique (.cons hs .nil) ht this
    rw [List.length_append] at this
    exact List.eq_nil_of_length_eq_zero (by omega)
  subst hlen
  exact ⟨p, q, w, w', h1, h2, h3, h4, h6, h7⟩

/-- `encode(["bytes", "(string,uint8[])[]"], …)` with one number changed. -/
example : Differs false (.uint 8) (.int 3) (.int 200) (.tuple [.bytes, .dyn (.tuple [.string, .dyn (.uint 8)])])
    (.list [.bytes [1], .list [.tuple [.str [], .list [.int 1, .int 3]]]])
    (.list [.bytes [1], .list [.tuple [.str [], .list [.int 1, .int 200]]]]) 32 :=
  .tuple (ts := [.bytes]) (ts' := []) (before := [.bytes [1]]) (after := []) rfl (.list _) (.list _)
    (.dyn (before := []) (after := []) (.list _) (.list _)
      (.tuple (ts := [.string]) (ts' := []) (before := [.str []]) (after := []) rfl (.tuple _) (.tuple _)
        (.dyn (before := [.int 1]) (after := []) (.list _) (.list _) (.word (.uint 8)))))

example : letI := Ex.ext
    (encode [t!"bytes", t!"(string,uint8[])[]"]
      (.list [.bytes [1], .list [.tuple [.str [], .list [.int 1, .int 3]]]])).isOk = true ∧
    (encode [t!"bytes", t!"(string,uint8[])[]"]
      (.list [.bytes [1], .list [.tuple [.str [], .list [.int 1, .int 200]]]])).isOk = true := by decide +kernel

end EthAbi
