import Verif.Spec.RoundTrip
import Verif.Lemmas.EngDoes

/-! States of the engine in the middle of ordinary content (C81): only ordinary elements are open, and no special mode is on. -/
namespace JH.Eng
open JH.Spec

/-- The names at the bottom of the stack. -/
def base (C : Cfg) : List Str := if C.fragment then [c%"#document-fragment"] else [c%"#document", c%"html", c%"body"]

/-- Nothing special is going on, and below the root the open elements are those of `anc` (innermost first). -/
structure Flow (C : Cfg) (anc : List Str) (s : St) : Prop where
  names : s.stack.map (fun i => (s.n i).name) = base C ++ anc.reverse
  nodes : ∀ i ∈ s.stack, i < s.heap.length ∧ isHtmlNs (s.n i).ns = true ∧ (s.n i).kind ≠ .template ∧ (s.n i).kind ≠ .text
  anc : ∀ x ∈ anc, x ∉ ownRules
  nodup : s.stack.Nodup
  fmt : ∃ es : List FEntry, s.fmt = es.map some ∧ (∀ e ∈ es, e.active = true ∧ e.name = (s.n e.node).name) ∧
    es.map (·.node) = s.stack.filter fun i => formatting.contains (s.n i).name
  retired : s.fmtRetired = 0
  tmodes : s.tmodes = []
  po : s.poDepth = 0
  mFrameset : s.mFrameset = false
  mColgroup : s.mColgroup = false
  mNoscript : s.mNoscript = false
  mAfter : s.mAfter = false
  mParserTpl : s.mParserTpl = false
  mTpl : s.mTpl = false
  after : s.after = .no
  frameset : s.framesetSeen = false
  colgroup : s.inColgroup = false
  noscript : s.inNoscript = false
  reentry : s.headReentry = false
  foreignSeen : s.foreignSeen = false
  selected : s.hasSelected = false
  ctx : s.ctxNode = none
  quirks : s.quirks ≠ .unset
  lf : s.ignoreLf = false
  nohead : C.fragment = true → s.head = none
  shell : C.fragment = false → s.bodySeen = true ∧ (∀ i ∈ s.stack.drop 2, s.html ≠ some i ∧ s.head ≠ some i) ∧
    (∀ i, s.html = some i ∨ s.head = some i → i < s.heap.length)

/-- The same state with another heap and other counters. -/
def St.with (s : St) (h : List ENode) (d : Bool) (k w : Nat) : St := { s with heap := h, fmtDirty := d, fmtNext := k, fosterWs := w }

theorem len_map_names {C : Cfg} {anc : List Str} {s : St} (h : Flow C anc s) : s.stack ≠ [] := by
  intro e
  have := h.names
  rw [e] at this
  simp [base] at this
  by_cases hf : C.fragment = true
  · simp [hf] at this
  · simp [hf] at this

theorem Flow.top_mem {C : Cfg} {anc : List Str} {s : St} (h : Flow C anc s) : s.top ∈ s.stack := by
  unfold St.top
  rw [List.getLastD_eq_getLast?, List.getLast?_eq_some_getLast (len_map_names h)]
  exact List.getLast_mem _

theorem Flow.name_cases {C : Cfg} {anc : List Str} {s : St} (h : Flow C anc s) {i : Nat} (hi : i ∈ s.stack) :
    (s.n i).name ∈ base C ∨ (s.n i).name ∈ anc := by
  have : (s.n i).name ∈ s.stack.map fun i => (s.n i).name := List.mem_map_of_mem (f := fun i => (s.n i).name) hi
  rw [h.names] at this
  simpa using this

/-- No open element has a name with rules of its own, apart from the root, `html` and `body`. -/
theorem Flow.name_ne {C : Cfg} {anc : List Str} {s : St} (h : Flow C anc s) {i : Nat} (hi : i ∈ s.stack) {x : Str} (hx : x ∈ ownRules)
    (h2 : x ≠ c%"html") (h3 : x ≠ c%"body") : (s.n i).name ≠ x := by
  rintro rfl
  rcases h.name_cases hi with hb | ha
  · unfold base at hb
    by_cases hf : C.fragment = true
    · rw [if_pos hf] at hb
      simp only [List.mem_singleton] at hb
      rw [hb] at hx
      exact absurd hx (by decide)
    · rw [if_neg hf] at hb
      simp only [List.mem_cons, List.not_mem_nil, or_false] at hb
      rcases hb with hb | hb | hb
      · rw [hb] at hx
        exact absurd hx (by decide)
      · exact h2 hb
      · exact h3 hb
  · exact h.anc _ ha hx

/-- A name that is not one of `anc` and not one of the root, `html` and `body` is not open. -/
theorem Flow.not_open {C : Cfg} {anc : List Str} {s : St} (h : Flow C anc s) {i : Nat} (hi : i ∈ s.stack) {x : Str} (hx : x ∉ anc)
    (h1 : x ∉ [c%"#document-fragment", c%"#document", c%"html", c%"body"]) : (s.n i).name ≠ x := by
  rintro rfl
  rcases h.name_cases hi with hb | ha
  · unfold base at hb
    by_cases hf : C.fragment = true
    · rw [if_pos hf] at hb; simp at hb h1; exact h1.1 hb
    · rw [if_neg hf] at hb; simp at hb h1; grind
  · exact hx ha

/-! ### Scans of the stack -/

theorem scanDown_none (p : Nat → Bool) (l : List Nat) (h : ∀ i ∈ l, p i = false) (n : Nat) (hn : n < l.length) : scanDownFrom p l n = none := by
  induction n with
  | zero => rfl
  | succ n ih =>
    rw [scanDownFrom, if_neg]
    · exact ih (by omega)
    · rw [List.getD_eq_getElem?_getD, List.getElem?_eq_getElem hn, Option.getD_some, h _ (List.getElem_mem hn)]
      simp

theorem lastIdx_none {s : St} {p : ENode → Bool} (h : ∀ i ∈ s.stack, p (s.n i) = false) : s.lastIdx p = none := by
  unfold St.lastIdx
  by_cases hs : s.stack.length = 0
  · rw [hs]; rfl
  · exact scanDown_none _ _ h _ (by omega)

theorem scanStop_none (p st : Nat → Bool) (l : List Nat) (h : ∀ i ∈ l, p i = false) (n : Nat) (hn : n < l.length) : scanStopFrom p st l n = none := by
  induction n with
  | zero => rfl
  | succ n ih =>
    have hp : p (l.getD (n + 1) 0) = false := by
      rw [List.getD_eq_getElem?_getD, List.getElem?_eq_getElem hn, Option.getD_some]
      exact h _ (List.getElem_mem hn)
    rw [scanStopFrom, hp, ih (by omega)]
    simp

theorem lastIdxStop_none {s : St} {p st : ENode → Bool} (h : ∀ i ∈ s.stack, p (s.n i) = false) : s.lastIdxStop p st = none := by
  unfold St.lastIdxStop
  by_cases hs : s.stack.length = 0
  · rw [hs]; rfl
  · exact scanStop_none _ _ _ h _ (by omega)

theorem getD_last (l : List Nat) : l.getD (l.length - 1) 0 = l.getLastD 0 := by
  rw [List.getD_eq_getElem?_getD, List.getLastD_eq_getLast?, List.getLast?_eq_getElem?]

/-- The innermost element ends the scan. -/
theorem lastIdxStop_stop {s : St} {p st : ENode → Bool} (h1 : p (s.n s.top) = false) (h2 : st (s.n s.top) = true) : s.lastIdxStop p st = none := by
  unfold St.lastIdxStop
  cases hl : s.stack.length - 1 with
  | zero => rfl
  | succ n =>
    have e : s.stack.getD (n + 1) 0 = s.top := by rw [← hl]; exact getD_last _
    rw [scanStopFrom, e, h1, h2]
    simp

variable {C : Cfg} {anc : List Str} {s : St}

theorem Flow.findOpen (h : Flow C anc s) {x : Str} (hx : x ∈ ownRules) (h2 : x ≠ c%"html") (h3 : x ≠ c%"body") : s.findOpen x = none :=
  lastIdx_none fun i hi => by simpa using h.name_ne hi hx h2 h3

theorem Flow.findOpenHtml (h : Flow C anc s) {x : Str} (hx : x ∈ ownRules) (h2 : x ≠ c%"html") (h3 : x ≠ c%"body") : s.findOpenHtml x = none :=
  lastIdx_none fun i hi => by simp [h.name_ne hi hx h2 h3]

theorem isHtml_open {ns : Option Str} (h : isHtmlNs ns = true) : openHtml ns = true := by simp [openHtml, h]

theorem Flow.topHtml (h : Flow C anc s) : isHtmlNs (s.n s.top).ns = true := (h.nodes _ h.top_mem).2.1

theorem Flow.topOpen (h : Flow C anc s) : openHtml (s.n s.top).ns = true := isHtml_open h.topHtml

theorem not_po {ns : Option Str} (h : isHtmlNs ns = true) : ns ≠ poNs := by
  rintro rfl
  exact absurd h (by decide)

theorem Flow.curParent (h : Flow C anc s) : s.curParent = s.top := by
  unfold St.curParent
  rw [if_neg (not_po h.topHtml)]
  exact if_neg (h.nodes _ h.top_mem).2.2.1

theorem Flow.topName (h : Flow C anc s) : s.topName = ((base C ++ anc.reverse).getLast?).getD [] := by
  unfold St.topName St.top
  rw [← h.names, List.getLast?_map, List.getLastD_eq_getLast?, List.getLast?_eq_some_getLast (len_map_names h)]
  rfl

theorem Flow.topName_cons {p : Str} {l : List Str} (h : Flow C (p :: l) s) : s.topName = p := by
  rw [h.topName, List.reverse_cons, ← List.append_assoc, List.getLast?_concat]; rfl

theorem Flow.topName_ne (h : Flow C anc s) {x : Str} (hx : x ∈ ownRules) (h2 : x ≠ c%"html") (h3 : x ≠ c%"body") : s.topName ≠ x :=
  h.name_ne h.top_mem hx h2 h3

/-! ### Reconstruction has nothing to do -/

theorem Flow.reconStart (h : Flow C anc s) : s.reconStart = none ∨ s.reconStart = some s.fmt.length := by
  obtain ⟨es, h1, h2, h3⟩ := h.fmt
  have hmem : ∀ e ∈ es, e.node ∈ s.stack := by
    intro e he
    have : e.node ∈ es.map (·.node) := List.mem_map_of_mem he
    rw [h3] at this
    exact (List.mem_filter.1 this).1
  unfold St.reconStart
  rw [h1, List.length_map]
  cases hl : es.length with
  | zero => left; rfl
  | succ n =>
    right
    obtain ⟨e, he, hm⟩ : ∃ e, (es.map some).getD n none = some e ∧ e ∈ es := by
      refine ⟨es[n]'(by omega), ?_, List.getElem_mem _⟩
      rw [List.getD_eq_getElem?_getD, List.getElem?_map, List.getElem?_eq_getElem (by omega)]
      rfl
    have e1 : fmtLast (es.map some) (n + 1) = some n := by
      unfold fmtLast
      rw [he]
      exact if_pos (h2 e hm).1
    rw [e1]
    dsimp only
    rw [he]
    dsimp only
    unfold fmtFrom
    rw [h1, he]
    dsimp only
    rw [if_pos]
    simp [(h2 e hm).1, hmem e hm]

theorem Flow.reconstruct (h : Flow C anc s) : reconstruct C s = ((), { s with fmtDirty := false }) := by
  unfold Eng.reconstruct
  rw [bind_eq]
  have e : (q (fun _ s => s.reconStart) : EM (Option Nat)) C s = (s.reconStart, s) := rfl
  rw [e]
  rcases h.reconStart with h1 | h1
  · rw [h1]; rfl
  · rw [h1]
    have e2 : ∀ f : Nat → EM Unit, f (s.fmt.length - s.fmt.length) = f 0 := fun f => by rw [Nat.sub_self]
    show ((do let n ← q (fun _ s => s.fmt.length - s.fmt.length); reconLoop n s.fmt.length) >>= fun _ => modS fun s => { s with fmtDirty := false }) C s = _
    show (modS (fun s => { s with fmtDirty := false })) C (reconLoop (s.fmt.length - s.fmt.length) s.fmt.length C s).2 = _
    rw [Nat.sub_self]
    rfl

end JH.Eng
