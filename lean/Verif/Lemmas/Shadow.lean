import Verif.Lemmas.Api
import Verif.Lemmas.DecimalValue

/-!
# Fixed-point words as 32 raw bytes

A fixed-point argument off the grid is encoded as some word that need not be the encoding of any
value.  Replacing the fixed-point types by `bytes32` gives types of the same shape whose values are
exactly what is stored, so facts about shapes carry over to every encoding.
-/
namespace EthAbi
open Spec

mutual
/-- The type with `bytes32` for every fixed-point type. -/
def shadow : Ty → Ty
  | .ufixed _ _ => .bytesM 32
  | .fixed _ _ => .bytesM 32
  | .sized k t => .sized k (shadow t)
  | .dyn t => .dyn (shadow t)
  | .tuple ts => .tuple (shadows ts)
  | t => t
/-- The same for a list of types. -/
def shadows : List Ty → List Ty
  | [] => []
  | t :: ts => shadow t :: shadows ts
end

theorem shadows_eq (ts : List Ty) : shadows ts = ts.map shadow := by
  induction ts with
  | nil => rfl
  | cons t ts ih => simp [shadows, ih]

theorem shadow_valid (t : Ty) : t.Valid → (shadow t).Valid := by
  refine Spec.Ty.ind (P := fun t => t.Valid → (shadow t).Valid) ?_ ?_ ?_ ?_ ?_ ?_ ?_ ?_ ?_ ?_ ?_ ?_ t
  · exact fun n h => h
  · exact fun n h => h
  · exact fun h => h
  · exact fun h => h
  · intro m n _; simp [shadow, Ty.Valid]
  · intro m n _; simp [shadow, Ty.Valid]
  · exact fun n h => h
  · exact fun h => h
  · exact fun h => h
  · intro k t ih h
    simp only [shadow, Ty.Valid] at h ⊢
    exact ⟨h.1, ih h.2⟩
  · intro t ih h
    simp only [shadow, Ty.Valid] at h ⊢
    exact ih h
  · intro ts ih h
    simp only [shadow, Ty.Valid, Spec.Ty.allValid_iff, shadows_eq] at h ⊢
    refine ⟨by simpa using h.1, ?_⟩
    intro t ht
    obtain ⟨u, hu, rfl⟩ := List.mem_map.1 ht
    exact ih u hu (h.2 u hu)

theorem shadow_dynamic (t : Ty) : (shadow t).dynamic = t.dynamic := by
  refine Spec.Ty.ind (P := fun t => (shadow t).dynamic = t.dynamic)
    ?_ ?_ ?_ ?_ ?_ ?_ ?_ ?_ ?_ ?_ ?_ ?_ t
  all_goals try (intros; rfl)
  · intro k t ih; simpa [shadow, Ty.dynamic] using ih
  · intro ts ih
    simp only [shadow, Ty.dynamic, anyDynamic_eq, shadows_eq, List.any_map]
    induction ts with
    | nil => rfl
    | cons t ts ih2 =>
      simp only [List.any_cons, Function.comp_apply, ih t (by simp)]
      rw [ih2 fun u hu => ih u (by simp [hu])]

theorem shadow_size (t : Ty) : (shadow t).size = t.size := by
  refine Spec.Ty.ind (P := fun t => (shadow t).size = t.size)
    ?_ ?_ ?_ ?_ ?_ ?_ ?_ ?_ ?_ ?_ ?_ ?_ t
  all_goals try (intros; rfl)
  · intro k t ih; simp [shadow, Ty.size, ih]
  · intro ts ih
    simp only [shadow, Ty.size]
    induction ts with
    | nil => rfl
    | cons t ts ih2 =>
      simp only [shadows, Ty.sizes, ih t (by simp)]
      rw [ih2 fun u hu => ih u (by simp [hu])]

theorem shadow_headStep (t : Ty) : headStep (shadow t) = headStep t := by
  simp [headStep, shadow_dynamic, shadow_size]

theorem encodeElements_raw [Ext] {validate : PyVal → PyM Unit} {item : Encoder} {v : PyVal} {b : Bytes}
    (hc : encodeElements validate item v = .ok b) :
    ∃ vs bs, asListLike? v = some vs ∧ validate v = .ok () ∧
      callAll (vs.map fun _ => item) vs = .ok bs ∧ b = layout (elems (vs.map fun _ => item) bs) := by
  have hval := encodeElements_val hc
  cases hv : asListLike? v with
  | none =>
    simp only [encodeElements, hval, hv, ok_bind] at hc
    cases hc
  | some vs =>
    rcases ok_or_error (callAll (vs.map fun _ => item) vs) with ⟨bs, hbs⟩ | ⟨er, her⟩
    · refine ⟨vs, bs, rfl, hval, hbs, ?_⟩
      rcases encodeElements_spec hv hval hbs with h3 | ⟨_, h3, _⟩
      · rw [hc] at h3
        injection h3
      · rw [hc] at h3; cases h3
    · simp only [encodeElements, hval, hv, ok_bind, encodeAll_eq, her, error_bind] at hc
      cases hc

theorem tupleEncode_raw [Ext] {es : List Encoder} {v : PyVal} {b : Bytes} (hc : tupleEncode es v = .ok b) :
    ∃ vs bs, asListLike? v = some vs ∧ vs.length = es.length ∧ callAll es vs = .ok bs ∧
      b = layout (elems es bs) := by
  have hval : tupleValidate es v = .ok () := by
    simp only [tupleEncode, unit_bind_ok] at hc
    exact hc.1
  cases hl : asListLike? v with
  | none =>
    simp only [tupleValidate, hl, invalidate_eq] at hval
    cases hval
  | some vs =>
    have hlen : vs.length = es.length := by
      simp only [tupleValidate, hl, invalidate_eq] at hval
      split at hval
      · cases hval
      · next h' => omega
    rcases ok_or_error (callAll es vs) with ⟨bs, hbs⟩ | ⟨er, her⟩
    · refine ⟨vs, bs, rfl, hlen, hbs, ?_⟩
      rcases tupleEncode_spec hl hval hbs with h3 | ⟨_, h3, _⟩
      · rw [hc] at h3
        injection h3
      · rw [hc] at h3; cases h3
    · simp only [tupleEncode, hval, hl, ok_bind, tupleChunks_eq, her, error_bind] at hc
      cases hc

theorem callAll_images {item : Encoder} {P : Val → Prop} {f : Val → Bytes}
    (h : ∀ v b, item.call v = .ok b → ∃ x, P x ∧ b = f x) {vs : List PyVal} {bs : List Bytes}
    (hc : callAll (vs.map fun _ => item) vs = .ok bs) :
    ∃ xs : List Val, xs.length = vs.length ∧ (∀ x ∈ xs, P x) ∧ bs = xs.map f := by
  induction vs generalizing bs with
  | nil => cases hc; exact ⟨[], rfl, by simp, rfl⟩
  | cons v vs ih =>
    obtain ⟨b, bs', h1, h2, rfl⟩ := callAll_ok_cons hc
    obtain ⟨x, hx, rfl⟩ := h v b h1
    obtain ⟨xs, hl, hxs, rfl⟩ := ih h2
    exact ⟨x :: xs, by simp [hl], by simpa using ⟨hx, hxs⟩, rfl⟩

theorem encodeElements_images [Ext] {validate : PyVal → PyM Unit} {item : Encoder} {P : Val → Prop}
    {f : Val → Bytes} (h : ∀ v b, item.call v = .ok b → ∃ x, P x ∧ b = f x) {v : PyVal} {b : Bytes}
    (hc : encodeElements validate item v = .ok b) :
    ∃ (vs : List PyVal) (xs : List Val), asListLike? v = some vs ∧ validate v = .ok () ∧ xs.length = vs.length ∧
      (∀ x ∈ xs, P x) ∧ b = layout (xs.map fun x => (item.dyn, f x)) := by
  obtain ⟨vs, bs, h1, h2, h3, rfl⟩ := encodeElements_raw hc
  obtain ⟨xs, hl, hp, rfl⟩ := callAll_images h h3
  exact ⟨vs, xs, h1, h2, hl, hp, by rw [elems_map hl.symm]⟩

theorem shadow_tuple [Ext] {ts : List Ty} (hv : ∀ t ∈ ts, t.Valid)
    (ih : ∀ t ∈ ts, ∀ v b, (encOf false t).call v = .ok b →
      ∃ x, Val.Of (shadow t) x ∧ b = enc (shadow t) x) {v : PyVal} {b : Bytes}
    (hb : (mkTuple (encsOf false ts)).call v = .ok b) :
    ∃ x, Val.Of (.tuple (shadows ts)) x ∧ b = enc (.tuple (shadows ts)) x := by
  obtain ⟨vs, bs, h1, h2, h3, rfl⟩ := tupleEncode_raw (show tupleEncode (encsOf false ts) v = .ok b from hb)
  suffices ∃ xs, Val.OfAll (shadows ts) xs ∧
      elems (encsOf false ts) bs = encAll (shadows ts) xs by
    obtain ⟨xs, h4, h5⟩ := this
    exact ⟨.seq xs, h4, by rw [h5]; rfl⟩
  clear hb h1
  induction ts generalizing vs bs with
  | nil =>
    cases vs with
    | nil => cases h3; exact ⟨[], trivial, rfl⟩
    | cons u us => simp [encsOf] at h2
  | cons t ts ih2 =>
    cases vs with
    | nil => simp [encsOf] at h2
    | cons u us =>
      simp only [encsOf] at h3
      obtain ⟨c, cs, h4, h5, rfl⟩ := callAll_ok_cons h3
      obtain ⟨x, hx, rfl⟩ := ih t (by simp) u c h4
      obtain ⟨xs, hxs, he⟩ := ih2 (fun t ht => hv t (by simp [ht])) (fun t ht => ih t (by simp [ht]))
        us cs (by simpa [encsOf] using h2) h5
      refine ⟨x :: xs, ⟨hx, hxs⟩, ?_⟩
      simp only [encsOf, elems, he, shadows, encAll, shadow_dynamic,
        (encOf_good false t (hv t (by simp))).dyn_eq]
      rfl

theorem shadow_call [Ext] (t : Ty) : t.Valid → ∀ v b, (encOf false t).call v = .ok b →
    ∃ x, Val.Of (shadow t) x ∧ b = enc (shadow t) x := by
  have hraw : ∀ v (e : Encoder) (f : Val → Bytes) b t, LeafGood t e 32 f → e.call v = .ok b →
      ∃ x, Val.Of (.bytesM 32) x ∧ b = enc (.bytesM 32) x := by
    intro v e f b t hl hb
    obtain ⟨b', h1, h2⟩ := hl.total v (hl.callVal v b hb)
    rw [hb] at h1
    cases h1
    exact ⟨.raw b, h2, by simp [enc, padRight32, h2]⟩
  have hsame : ∀ t : Ty, t.Valid → (∀ v, OnGrid t v) → shadow t = t → ∀ v b,
      (encOf false t).call v = .ok b → ∃ x, Val.Of (shadow t) x ∧ b = enc (shadow t) x := by
    intro t hv hg hs v b hb
    obtain ⟨x, h1, h2⟩ := call_spec false t hv v b hb (hg v)
    rw [hs]
    exact ⟨x, denote_of t v x h1, by simpa [encBy] using h2⟩
  refine Spec.Ty.ind (P := fun t => t.Valid → ∀ v b, (encOf false t).call v = .ok b →
    ∃ x, Val.Of (shadow t) x ∧ b = enc (shadow t) x) ?_ ?_ ?_ ?_ ?_ ?_ ?_ ?_ ?_ ?_ ?_ ?_ t
  · exact fun n hv => hsame _ hv (fun _ => by simp [OnGrid]) rfl
  · exact fun n hv => hsame _ hv (fun _ => by simp [OnGrid]) rfl
  · exact fun hv => hsame _ hv (fun _ => by simp [OnGrid]) rfl
  · exact fun hv => hsame _ hv (fun _ => by simp [OnGrid]) rfl
  · intro m n hv v b hb
    simp only [Ty.Valid] at hv
    exact hraw v _ _ b _ (ufixed_good hv.1 hv.2.2 (by have := hv.1.2.1; omega)) hb
  · intro m n hv v b hb
    simp only [Ty.Valid] at hv
    exact hraw v _ _ b _ (sfixed_good hv.1 hv.2.2 (by have := hv.1.2.1; omega)) hb
  · exact fun n hv => hsame _ hv (fun _ => by simp [OnGrid]) rfl
  · exact fun hv => hsame _ hv (fun _ => by simp [OnGrid]) rfl
  · exact fun hv => hsame _ hv (fun _ => by simp [OnGrid]) rfl
  · intro k t ih hv v b hb
    simp only [Ty.Valid] at hv
    obtain ⟨vs, xs, h1, h2, h3, h4, rfl⟩ := encodeElements_images (ih hv.2) (show
      encodeElements (sizedArrayValidate (encOf false t) (some k)) (encOf false t) v = .ok b from hb)
    obtain ⟨vs', h5, _, h6⟩ := sizedArrayValidate_ok.1 h2
    rw [h1] at h5
    cases h5
    rw [(encOf_good false t hv.2).dyn_eq]
    refine ⟨.seq xs, ⟨by rw [h3]; exact h6 k rfl, h4⟩, ?_⟩
    simp only [shadow, enc, shadow_dynamic]
    rfl
  · intro t ih hv v b hb
    simp only [Ty.Valid] at hv
    have hb' : (mkDynamicArray (encOf false t)).call v = .ok b := hb
    simp only [mkDynamicArray, bind_eq_ok] at hb'
    obtain ⟨len, hl, sz, hsz, els, hels, he⟩ := hb'
    obtain ⟨vs, xs, h1, _, h3, h4, rfl⟩ := encodeElements_images (ih hv) hels
    rw [(encOf_good false t hv).dyn_eq] at he
    refine ⟨.seq xs, h4, ?_⟩
    rw [(asListLike_weight h1).2.2] at hl
    injection hl with hl
    subst hl
    rw [encodeUint256_eq] at hsz
    split at hsz
    · injection hsz with hsz
      subst hsz
      injection he with he
      rw [← he, ← h3]
      simp only [shadow, enc, shadow_dynamic]
      rfl
    · cases hsz
  · intro ts ih hv v b hb
    simp only [Ty.Valid, Spec.Ty.allValid_iff] at hv
    exact shadow_tuple hv.2 (fun t ht => ih t ht (hv.2 t ht)) hb

/-- The encoding that `encode` produces for any arguments it accepts. -/
theorem shadow_encode [Ext] {types : List TypeStr} {ts : List Ty} (hT : Names types ts) {args : PyVal}
    {b : Bytes} (h : encode types args = .ok b) :
    ∃ xs, Val.OfAll (shadows ts) xs ∧ b = encodeArgs (shadows ts) xs := by
  obtain ⟨ts', vs, h1, h2, _, _⟩ := encode_ok (pk := false) h
  obtain rfl := supportedAll_unique hT h1
  have he : encode types args = (mkTuple (encsOf false ts)).call args := encode_eq false hT h2
  rw [he] at h
  have hv := supportedAll_valid hT
  obtain ⟨x, hx, rfl⟩ := shadow_tuple hv (fun t ht => shadow_call t (hv t ht)) h
  cases x <;> try exact hx.elim
  exact ⟨_, hx, rfl⟩

theorem shadow_codeHead (ts : List Ty) : codeHead (shadows ts) = codeHead ts := by
  have h : ∀ t, headWords (shadow t) = headWords t := by
    intro t
    have h1 := shadow_dynamic t
    have h2 : arrayDim (shadow t) = arrayDim t := by cases t <;> rfl
    simp only [headWords, h1, h2]
  simp only [codeHead, headWordsAll, shadows_eq, List.map_map]
  congr 3
  funext t
  exact h t

theorem shadow_readsAll {strict : Bool} {ts : List Ty} {d : Bytes} {base lo q : Nat} {xs : List Val}
    (ih : ∀ t ∈ ts, ∀ (strict : Bool) (p : Nat) (x : Val), Reads codeHead strict t d p x →
      ∃ y, Reads codeHead strict (shadow t) d p y)
    (h : ReadsAll codeHead strict ts d base lo q xs) :
    ∃ ys, ReadsAll codeHead strict (shadows ts) d base lo q ys := by
  induction ts generalizing q xs with
  | nil =>
    exact ⟨[], by simp [shadows, ReadsAll]⟩
  | cons t ts ih2 =>
    cases xs with
    | nil => simp [ReadsAll] at h
    | cons x xs =>
      simp only [ReadsAll] at h
      obtain ⟨ys, hys⟩ := ih2 (fun t ht => ih t (by simp [ht])) h.2
      have : ∃ y, ReadsItem t.dynamic (Reads codeHead strict (shadow t) d) d base lo q y := by
        have h1 := h.1
        cases hd : t.dynamic with
        | true =>
          simp only [ReadsItem, hd, if_true] at h1 ⊢
          obtain ⟨off, a1, a2, a3, a4, a5⟩ := h1
          obtain ⟨y, hy⟩ := ih t (by simp) _ _ _ a5
          exact ⟨y, off, a1, a2, a3, a4, hy⟩
        | false =>
          simp only [ReadsItem, hd, Bool.false_eq_true, if_false] at h1 ⊢
          exact ih t (by simp) _ _ _ h1
      obtain ⟨y, hy⟩ := this
      refine ⟨y :: ys, ?_⟩
      simp only [shadows, ReadsAll, shadow_dynamic, shadow_headStep]
      exact ⟨hy, hys⟩

theorem shadows_replicate (k : Nat) (t : Ty) :
    shadows (List.replicate k t) = List.replicate k (shadow t) := by
  rw [shadows_eq, List.map_replicate]

theorem shadow_many {t : Ty} {d : Bytes} {base lo q : Nat} {xs : List Val}
    (ih : ∀ (strict : Bool) (p : Nat) (x : Val), Reads codeHead strict t d p x →
      ∃ y, Reads codeHead strict (shadow t) d p y)
    (h : ReadsMany t.dynamic (Reads codeHead true t d) (headStep t) d base lo q xs) :
    ∃ ys : List Val, ys.length = xs.length ∧
      ReadsMany t.dynamic (Reads codeHead true (shadow t) d) (headStep t) d base lo q ys := by
  rw [readsMany_all] at h
  obtain ⟨ys, hys⟩ := shadow_readsAll (ts := List.replicate xs.length t)
    (fun t' ht' => by rw [(List.mem_replicate.1 ht').2]; exact ih) h
  rw [shadows_replicate] at hys
  have hl := readsAll_length hys
  simp only [List.length_replicate] at hl
  refine ⟨ys, hl, ?_⟩
  have := (readsMany_all (mh := codeHead) (t := shadow t) (d := d) (base := base) (lo := lo) (q := q)
    (xs := ys)).2 (by rw [hl]; exact hys)
  rwa [shadow_dynamic, shadow_headStep] at this

theorem shadow_reads (t : Ty) : t.Valid → ∀ (strict : Bool) (d : Bytes) (p : Nat) (x : Val),
    Reads codeHead strict t d p x → ∃ y, Reads codeHead strict (shadow t) d p y := by
  have hraw : ∀ (strict : Bool) (d : Bytes) (p : Nat) (i : Int), At d p (wordOf i) →
      ∃ y, Reads codeHead strict (.bytesM 32) d p y := by
    intro strict d p i h
    have hl : (wordOf i).length = 32 := by rw [wordOf_eq, beBytes_length]
    refine ⟨.raw (wordOf i), ?_⟩
    simp only [Reads, Val.Of, enc, padRight32, hl]
    simpa using h
  refine Spec.Ty.ind (P := fun t => t.Valid → ∀ (strict : Bool) (d : Bytes) (p : Nat) (x : Val),
    Reads codeHead strict t d p x → ∃ y, Reads codeHead strict (shadow t) d p y)
    ?_ ?_ ?_ ?_ ?_ ?_ ?_ ?_ ?_ ?_ ?_ ?_ t
  · exact fun n _ _ _ _ x h => ⟨x, h⟩
  · exact fun n _ _ _ _ x h => ⟨x, h⟩
  · exact fun _ _ _ _ x h => ⟨x, h⟩
  · exact fun _ _ _ _ x h => ⟨x, h⟩
  · intro m n hv strict d p x h
    simp only [Reads] at h
    cases x <;> try exact h.1.elim
    exact hraw strict d p _ h.2
  · intro m n hv strict d p x h
    simp only [Reads] at h
    cases x <;> try exact h.1.elim
    exact hraw strict d p _ h.2
  · exact fun n _ _ _ _ x h => ⟨x, h⟩
  · exact fun _ _ _ _ x h => ⟨x, h⟩
  · exact fun _ _ _ _ x h => ⟨x, h⟩
  · intro k t ih hv strict d p x h
    cases x <;> try exact h.1.elim
    simp only [Ty.Valid] at hv
    simp only [Reads] at h
    obtain ⟨ys, hl, hys⟩ := shadow_many (fun strict => ih hv.2 strict d) h.2
    refine ⟨.seq ys, ?_⟩
    simp only [shadow, Reads, shadow_dynamic, shadow_headStep]
    exact ⟨hl.trans h.1, hys⟩
  · intro t ih hv strict d p x h
    cases x <;> try exact h.1.elim
    simp only [Ty.Valid] at hv
    simp only [Reads] at h
    obtain ⟨ys, hl, hys⟩ := shadow_many (fun strict => ih hv strict d) h.2.2
    refine ⟨.seq ys, ?_⟩
    simp only [shadow, Reads, shadow_dynamic, shadow_headStep, hl]
    exact ⟨h.1, h.2.1, hys⟩
  · intro ts ih hv strict d p x h
    cases x <;> try exact h.1.elim
    have hvs := Spec.Ty.allValid_iff.1 hv.2
    simp only [Reads] at h
    obtain ⟨ys, hys⟩ := shadow_readsAll (fun t ht strict p x => ih t ht (hvs t ht) strict d p x) h
    refine ⟨.seq ys, ?_⟩
    simp only [shadow, Reads, shadow_codeHead]
    exact hys

theorem shadows_valid {ts : List Ty} (hv : ∀ t ∈ ts, t.Valid) : ∀ t ∈ shadows ts, t.Valid := by
  intro t ht
  rw [shadows_eq] at ht
  obtain ⟨u, hu, rfl⟩ := List.mem_map.1 ht
  exact shadow_valid u (hv u hu)

theorem shadow_readsArgs {strict : Bool} {ts : List Ty} (hv : ∀ t ∈ ts, t.Valid) {d : Bytes}
    {xs : List Val} (h : ReadsArgs codeHead strict ts d xs) :
    ∃ ys, ReadsArgs codeHead strict (shadows ts) d ys := by
  obtain ⟨ys, hys⟩ := shadow_readsAll (fun t ht strict p x => shadow_reads t (hv t ht) strict d p x) h
  exact ⟨ys, by simpa only [ReadsArgs, shadow_codeHead] using hys⟩

/-- One fixed-point argument, with the checks that it passes and the bytes written out. -/
theorem sfixed_one [Ext] {m n : Nat} {v : PyVal} {x : Dec10} {b : Bytes} (hv : number? v = some x)
    (hc : (computeSignedFixedBounds m n >>= fun b => if decLt x b.1 || decLt b.2 x then .error .valueError else
      decRem x (tenPowNeg n) >>= fun r => if 0 < r.1 then .error .valueError else .ok ()) = .ok ())
    (he : sfixedEncode (fun _ => .ok ()) m n 32 v = .ok b) :
    (mkTuple [sfixedEnc m n 32]).call (.list [v]) = .ok b := by
  have hval : fixedValidate (computeSignedFixedBounds m n) n v = .ok () := by
    rw [fixedValidate_number _ n hv]
    generalize computeSignedFixedBounds m n = B at *
    generalize decRem x (tenPowNeg n) = R at *
    cases B with
    | error e => cases hc
    | ok B =>
      simp only [ok_bind] at hc ⊢
      split at hc
      · cases hc
      · next h1 =>
        rw [if_neg h1]
        cases R with
        | error e => cases hc
        | ok r =>
          simp only [ok_bind] at hc ⊢
          split at hc
          · cases hc
          · next h2 => rw [if_neg h2]
  have hcall : (sfixedEnc m n 32).call v = .ok b := by
    rw [← he]
    simp only [sfixedEnc, sfixedEncode, hval]
  have hvv : (sfixedEnc m n 32).validateValue v = .ok () := hval
  have hd : (sfixedEnc m n 32).dyn = false := rfl
  show tupleEncode [sfixedEnc m n 32] (.list [v]) = _
  simp only [tupleEncode, tupleValidate, asListLike?, List.length_cons, List.length_nil,
    ne_eq, not_true_eq_false, if_false, tupleValidateItems, validateOrCall, hvv, tupleChunks, hcall, hd]
  simp [headLength, tailOffsets, tupleHeadChunks]

end EthAbi
