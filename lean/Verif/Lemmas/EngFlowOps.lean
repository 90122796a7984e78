import Verif.Lemmas.EngFlow

/-! What a state in ordinary content becomes when a node is added, opened or closed (C81). -/
namespace JH.Eng
open JH.Spec

variable {C : Cfg} {anc : List Str} {s : St}

/-- A new node as last child of the current one. -/
def St.child (s : St) (n : ENode) : St := (s.add n).linkLast s.top s.heap.length

theorem child_eq (s : St) (n : ENode) : s.child n = { s with heap := (s.child n).heap } := rfl

theorem len_child (s : St) (n : ENode) : (s.child n).heap.length = s.heap.length + 1 := by
  unfold St.child St.linkLast
  rw [len_upd, len_upd, len_add]

theorem child_old (s : St) (n : ENode) {i : Nat} (h : i < s.heap.length) (hi : i ≠ s.top) : (s.child n).n i = s.n i := by
  unfold St.child St.linkLast
  rw [n_upd_ne _ _ (by omega), n_upd_ne _ _ (fun e => hi e.symm), n_add_lt _ _ h]

theorem child_top (s : St) (n : ENode) (h : s.top < s.heap.length) :
    (s.child n).n s.top = { s.n s.top with children := (s.n s.top).children ++ [s.heap.length] } := by
  unfold St.child St.linkLast
  rw [n_upd_ne _ _ (by omega), n_upd_self _ _ (by rw [len_add]; omega), n_add_lt _ _ h]

theorem child_new (s : St) (n : ENode) (h : s.top < s.heap.length) : (s.child n).n s.heap.length = { n with parent := some s.top } := by
  unfold St.child St.linkLast
  rw [n_upd_self _ _ (by rw [len_upd, len_add]; omega), n_upd_ne _ _ (by omega), n_add_eq]

theorem Flow.top_lt (h : Flow C anc s) : s.top < s.heap.length := (h.nodes _ h.top_mem).1

/-- Another heap in which the open elements look the same. -/
theorem Flow.with (h : Flow C anc s) {hp : List ENode} {d : Bool} {k w : Nat} (hl : s.heap.length ≤ hp.length)
    (hn : ∀ i ∈ s.stack, ((s.with hp d k w).n i).name = (s.n i).name ∧ ((s.with hp d k w).n i).ns = (s.n i).ns ∧ ((s.with hp d k w).n i).kind = (s.n i).kind) :
    Flow C anc (s.with hp d k w) := by
  refine ⟨?_, ?_, h.anc, h.nodup, ?_, h.retired, h.tmodes, h.po, h.mFrameset, h.mColgroup, h.mNoscript, h.mAfter, h.mParserTpl, h.mTpl, h.after,
    h.frameset, h.colgroup, h.noscript, h.reentry, h.foreignSeen, h.selected, h.ctx, h.quirks, h.lf, h.nohead, ?_⟩
  · rw [← h.names]
    exact List.map_congr_left fun i hi => (hn i hi).1
  · intro i hi
    obtain ⟨h1, h2, h3, h4⟩ := h.nodes i hi
    rw [(hn i hi).2.1, (hn i hi).2.2]
    exact ⟨Nat.lt_of_lt_of_le h1 hl, h2, h3, h4⟩
  · obtain ⟨es, h1, h2, h3⟩ := h.fmt
    have e : (s.with hp d k w).stack.filter (fun i => formatting.contains ((s.with hp d k w).n i).name) =
        s.stack.filter fun i => formatting.contains (s.n i).name :=
      List.filter_congr fun i hi => by rw [(hn i hi).1]
    refine ⟨es, h1, fun e he => ⟨(h2 e he).1, ?_⟩, by rw [e]; exact h3⟩
    have : e.node ∈ es.map (·.node) := List.mem_map_of_mem he
    rw [h3] at this
    rw [(hn _ (List.mem_filter.1 this).1).1]
    exact (h2 e he).2
  · intro hf
    obtain ⟨h1, h2, h4⟩ := h.shell hf
    exact ⟨h1, h2, fun i hi => Nat.lt_of_lt_of_le (h4 i hi) hl⟩

theorem Flow.counters (h : Flow C anc s) (d : Bool) (k w : Nat) : Flow C anc (s.with s.heap d k w) :=
  h.with (Nat.le_refl _) fun _ _ => ⟨rfl, rfl, rfl⟩

theorem child_same (h : Flow C anc s) (n : ENode) {i : Nat} (hi : i ∈ s.stack) :
    ((s.child n).n i).name = (s.n i).name ∧ ((s.child n).n i).ns = (s.n i).ns ∧ ((s.child n).n i).kind = (s.n i).kind := by
  by_cases e : i = s.top
  · subst e
    rw [child_top _ _ h.top_lt]
    exact ⟨rfl, rfl, rfl⟩
  · rw [child_old _ _ (h.nodes i hi).1 e]
    exact ⟨rfl, rfl, rfl⟩

theorem Flow.child (h : Flow C anc s) (n : ENode) (d : Bool) (k w : Nat) : Flow C anc ((s.child n).with (s.child n).heap d k w) := by
  have e : (s.child n).with (s.child n).heap d k w = s.with (s.child n).heap d k w := rfl
  rw [e]
  exact h.with (by rw [len_child]; omega) fun i hi => child_same h n hi

/-- The element of a tag is opened; `f` is its entry if it is a formatting element. -/
def St.opened (s : St) (name : Str) (attrs : Attrs) (f : List FEntry) (d : Bool) (k w : Nat) : St :=
  { s.child (elementNode name attrs (some c%"html")) with
    stack := s.stack ++ [s.heap.length], fmt := s.fmt ++ f.map some, fmtDirty := d, fmtNext := k, fosterWs := w }

/-- The entries of a new element. -/
def EntryFor (s : St) (name : Str) (f : List FEntry) : Prop :=
  if formatting.contains name then ∃ e : FEntry, f = [e] ∧ e.active = true ∧ e.name = name ∧ e.node = s.heap.length else f = []

theorem opened_n (s : St) (name : Str) (attrs : Attrs) (f : List FEntry) (d : Bool) (k w i : Nat) :
    (s.opened name attrs f d k w).n i = (s.child (elementNode name attrs (some c%"html"))).n i := rfl

theorem opened_top (s : St) (name : Str) (attrs : Attrs) (f : List FEntry) (d : Bool) (k w : Nat) :
    (s.opened name attrs f d k w).top = s.heap.length := by
  unfold St.top St.opened
  rw [List.getLastD_eq_getLast?, List.getLast?_concat]
  rfl

theorem Flow.opened (h : Flow C anc s) {name : Str} (hn : name ∉ ownRules) (attrs : Attrs) {f : List FEntry} (hf : EntryFor s name f) (d : Bool) (k w : Nat) :
    Flow C (name :: anc) (s.opened name attrs f d k w) := by
  have hnew : (s.opened name attrs f d k w).n s.heap.length = { elementNode name attrs (some c%"html") with parent := some s.top } :=
    child_new s _ h.top_lt
  have hfresh : s.heap.length ∉ s.stack := fun hm => by have := (h.nodes _ hm).1; omega
  refine ⟨?_, ?_, ?_, ?_, ?_, h.retired, h.tmodes, h.po, h.mFrameset, h.mColgroup, h.mNoscript, h.mAfter, h.mParserTpl, h.mTpl, h.after,
    h.frameset, h.colgroup, h.noscript, h.reentry, h.foreignSeen, h.selected, h.ctx, h.quirks, h.lf, h.nohead, ?_⟩
  · show (s.stack ++ [s.heap.length]).map _ = _
    rw [List.map_append, List.map_singleton, hnew, List.reverse_cons, ← List.append_assoc, ← h.names]
    congr 1
    exact List.map_congr_left fun i hi => (child_same h _ hi).1
  · intro i hi
    rcases List.mem_append.1 hi with hi | hi
    · obtain ⟨h1, h2, h3, h4⟩ := h.nodes i hi
      have e := child_same h (elementNode name attrs (some c%"html")) hi
      rw [opened_n, e.2.1, e.2.2]
      refine ⟨?_, h2, h3, h4⟩
      show i < (s.child _).heap.length
      rw [len_child]; omega
    · rw [List.mem_singleton.1 hi, hnew]
      refine ⟨?_, rfl, by simp [elementNode], by simp [elementNode]⟩
      show s.heap.length < (s.child _).heap.length
      rw [len_child]; omega
  · intro x hx
    rcases List.mem_cons.1 hx with rfl | hx
    · exact hn
    · exact h.anc x hx
  · show (s.stack ++ [s.heap.length]).Nodup
    rw [List.nodup_append]
    exact ⟨h.nodup, by simp, fun a ha b hb e => hfresh (by rw [List.mem_singleton.1 hb] at e; exact e ▸ ha)⟩
  · obtain ⟨es, h1, h2, h3⟩ := h.fmt
    have hin : ∀ e ∈ es, e.node ∈ s.stack := fun e he => by
      have : e.node ∈ es.map (·.node) := List.mem_map_of_mem he
      rw [h3] at this
      exact (List.mem_filter.1 this).1
    have hfil : s.stack.filter (fun i => formatting.contains ((s.opened name attrs f d k w).n i).name) =
        s.stack.filter fun i => formatting.contains (s.n i).name :=
      List.filter_congr fun i hi => by rw [opened_n, (child_same h _ hi).1]
    refine ⟨es ++ f, ?_, ?_, ?_⟩
    · show s.fmt ++ f.map some = _
      rw [h1, List.map_append]
    · intro e he
      rcases List.mem_append.1 he with he | he
      · refine ⟨(h2 e he).1, ?_⟩
        rw [opened_n, (child_same h _ (hin e he)).1]
        exact (h2 e he).2
      · unfold EntryFor at hf
        by_cases hc : formatting.contains name = true
        · rw [if_pos hc] at hf
          obtain ⟨e', rfl, g1, g2, g3⟩ := hf
          rw [List.mem_singleton.1 he, g3, hnew]
          exact ⟨g1, g2⟩
        · rw [if_neg hc] at hf
          rw [hf] at he
          exact absurd he (by simp)
    · show _ = (s.stack ++ [s.heap.length]).filter _
      rw [List.filter_append, hfil, List.map_append, h3]
      congr 1
      unfold EntryFor at hf
      have hnm : ((s.opened name attrs f d k w).n s.heap.length).name = name := by rw [hnew]; rfl
      by_cases hc : formatting.contains name = true
      · rw [if_pos hc] at hf
        obtain ⟨e', rfl, g1, g2, g3⟩ := hf
        rw [List.filter_cons, if_pos (by rw [hnm]; exact hc), List.map_singleton, g3]
        rfl
      · rw [if_neg hc] at hf
        subst hf
        rw [List.filter_cons, if_neg (by rw [hnm]; exact hc)]
        rfl
  · intro hfr
    obtain ⟨h1, h2, h4⟩ := h.shell hfr
    refine ⟨h1, ?_, ?_⟩
    · intro i hi
      have hi' : i ∈ s.stack.drop 2 ∨ i = s.heap.length := by
        have : i ∈ (s.stack ++ [s.heap.length]).drop 2 := hi
        rw [List.drop_append] at this
        rcases List.mem_append.1 this with h | h
        · exact .inl h
        · exact .inr (by simpa using List.mem_of_mem_drop h)
      rcases hi' with hi' | rfl
      · exact h2 i hi'
      · exact ⟨fun e => by have := h4 _ (.inl e); omega, fun e => by have := h4 _ (.inr e); omega⟩
    · intro i hi
      have := h4 i hi
      show i < (s.child _).heap.length
      rw [len_child]; omega

end JH.Eng
