import Verif.Lemmas.EngKids

/-! The nodes form a tree at all times (C94). -/
namespace JH.Eng

/-- A parent and a child, or a template and its content. -/
def Edge (s : St) (p c : Nat) : Prop := Live s p ∧ (c ∈ (s.n p).children ∨ (s.n p).content = some c)

/-- `b` is `a`, or below it. -/
inductive Over (s : St) (a : Nat) : Nat → Prop
  | refl : Over s a a
  | tail {b c} : Over s a b → Edge s b c → Over s a c

theorem Over.trans {s : St} {a b c : Nat} (h : Over s a b) (k : Over s b c) : Over s a c := by
  induction k with
  | refl => exact h
  | tail _ e ih => exact .tail ih e

theorem Over.head {s : St} {a b c : Nat} (h : Edge s a b) (k : Over s b c) : Over s a c := Over.trans (.tail .refl h) k

theorem Over.mono {s t : St} (he : ∀ x y, Edge t x y → Edge s x y) {a b : Nat} (h : Over t a b) : Over s a b := by
  induction h with
  | refl => exact .refl
  | tail _ e ih => exact .tail ih (he _ _ e)

/-- One more edge. -/
theorem Over.add {s t : St} {p c : Nat} (he : ∀ x y, Edge t x y → Edge s x y ∨ (x = p ∧ y = c)) {a b : Nat} (h : Over t a b) :
    Over s a b ∨ (Over s a p ∧ Over s c b) := by
  induction h with
  | refl => exact .inl .refl
  | tail _ e ih =>
    rcases he _ _ e with e | ⟨rfl, rfl⟩
    · exact ih.imp (fun k => .tail k e) fun k => ⟨k.1, .tail k.2 e⟩
    · exact .inr ⟨ih.elim id (·.1), .refl⟩

/-- A number for every node that grows downwards. -/
def Ranked (s : St) : Prop := ∃ rk : Nat → Nat, ∀ p c, Edge s p c → rk p < rk c

theorem Ranked.mono {s t : St} (h : Ranked s) (he : ∀ x y, Edge t x y → Edge s x y) : Ranked t := h.imp fun _ h p c e => h p c (he p c e)

theorem Ranked.add {s t : St} (h : Ranked s) {p c : Nat} (he : ∀ x y, Edge t x y → Edge s x y ∨ (x = p ∧ y = c)) (hno : ¬ Over s c p) : Ranked t := by
  classical
  obtain ⟨rk, hr⟩ := h
  refine ⟨fun y => if Over s c y then rk y + rk p + 1 else rk y, fun x y e => ?_⟩
  dsimp only
  rcases he x y e with e | ⟨rfl, rfl⟩
  · have := hr x y e
    by_cases hx : Over s c x
    · rw [if_pos hx, if_pos (hx.tail e)]; omega
    · rw [if_neg hx]; split <;> omega
  · rw [if_neg hno, if_pos .refl]; omega

/-- What comes later on the stack is not above what comes earlier. -/
def Ord (s : St) : Prop :=
  (∀ i ∈ s.stack, Fixed s i ∨ (s.n i).kind ≠ .fragment) ∧
  s.stack.Pairwise fun a b => (Fixed s a ∧ Fixed s b) ∨ (¬ Fixed s b ∧ ¬ Over s b a)

/-- The node `c` has no parent but `x`: the body is below `html`, and the context of a fragment below the root. -/
def Tie (s : St) (x c : Nat) : Prop := (s.html = some x ∧ c = s.body) ∨ (s.doc = x ∧ s.ctxNode = some c)

/-- The nodes form a tree. -/
structure Tidy (s : St) : Prop where
  fixed : ∀ i, Fixed s i → i < s.heap.length ∧ (s.n i).ns ≠ poNs
  stk : ∀ i ∈ s.stack, i < s.heap.length
  kids : Kids (Live s) (fun _ => True) s
  cont : ∀ p c, (s.n p).content = some c → c < s.heap.length ∧ (s.n c).ns ≠ poNs ∧ (s.n p).ns ≠ poNs ∧ (s.n c).kind = .fragment ∧ (s.n c).parent = some p
  sort : ∀ p, Live s p → ∀ c ∈ (s.n p).children, (s.n c).kind ≠ .fragment
  rank : Ranked s
  ord : Ord s
  fmtn : ∀ e, some e ∈ s.fmt → ¬ Fixed s e.node ∧ e.name ∉ [c%"table", c%"template"]
  ctx : ∀ c, s.ctxNode = some c → Fixed s c
  tie : ∀ x c, Tie s x c → ∀ p, Edge s p c → p = x

theorem Tidy.tied {s : St} (h : Tidy s) {x c : Nat} (k : Tie s x c) : Fixed s x ∧ Fixed s c := by
  rcases k with ⟨k1, k2⟩ | ⟨k1, k2⟩
  · exact ⟨.inr (.inl (by rw [k1]; rfl)), .inr (.inr (.inr k2))⟩
  · exact ⟨.inl k1.symm, h.ctx c k2⟩

theorem Tidy.body {s : St} (h : Tidy s) (x : Nat) (hx : s.html = some x) (p : Nat) (e : Edge s p s.body) : p = x := h.tie x _ (.inl ⟨hx, rfl⟩) p e

theorem tie_of {s t : St} (h : t.fixed = s.fixed) (x c : Nat) : Tie t x c ↔ Tie s x c := by
  simp only [St.fixed, Prod.mk.injEq] at h
  unfold Tie
  rw [h.1, h.2.1, h.2.2.2.1, h.2.2.2.2]

theorem ctx_of {s t : St} (h : t.fixed = s.fixed) : t.ctxNode = s.ctxNode := by
  simp only [St.fixed, Prod.mk.injEq] at h
  exact h.2.2.2.2

theorem fixed_of {s t : St} (h : t.fixed = s.fixed) (i : Nat) : Fixed t i ↔ Fixed s i := by
  simp only [St.fixed, Prod.mk.injEq] at h
  obtain ⟨h1, h2, h3, h4, _⟩ := h
  unfold Fixed
  rw [h1, h2, h3, h4]

/-- Fewer edges and fewer open elements. -/
theorem Tidy.sub {s t : St} (h : Tidy s) (hh : t.heads = s.heads) (hc : ∀ i, (t.n i).content = (s.n i).content) (hk : Kids (Live t) (fun _ => True) t)
    (hfr : ∀ c, (s.n c).kind = .fragment → (t.n c).parent = (s.n c).parent)
    (hsub : ∀ p, Live t p → ∀ c ∈ (t.n p).children, c ∈ (s.n p).children)
    (hfix : t.fixed = s.fixed) (hst : t.stack.Sublist s.stack)
    (hfmt : ∀ e, some e ∈ t.fmt → ∃ e', some e' ∈ s.fmt ∧ e.name = e'.name ∧ e.node = e'.node) : Tidy t := by
  have hl := len_of_heads hh
  have hn := ns_of_heads hh
  have hf := fixed_of hfix
  have hlive : ∀ p, Live t p → Live s p := by
    rintro p (k | k)
    · exact .inl ((hn p).1 ▸ k)
    · exact .inr (hst.subset k)
  have he : ∀ x y, Edge t x y → Edge s x y := by
    rintro x y ⟨k1, k2⟩
    refine ⟨hlive x k1, k2.imp (hsub x k1 y) fun k => ?_⟩
    rw [← hc]; exact k
  refine ⟨fun i hi => ?_, fun i hi => ?_, hk, fun p c hpc => ?_, fun p hp c hpc => ?_, h.rank.mono he, ⟨fun i hi => ?_, ?_⟩, fun e hem => ?_, fun c hc => (hf c).2 (h.ctx c (ctx_of hfix ▸ hc)), fun x y hx p hp => h.tie x y ((tie_of hfix x y).1 hx) p (he _ _ hp)⟩
  · rw [hl, (hn i).1]; exact h.fixed i ((hf i).1 hi)
  · rw [hl]; exact h.stk i (hst.subset hi)
  · rw [hc] at hpc
    have := h.cont p c hpc
    rw [hl, (hn c).1, (hn p).1, (hn c).2.1, hfr c this.2.2.2.1]
    exact this
  · rw [(hn c).2.1]; exact h.sort p (hlive p hp) c (hsub p hp c hpc)
  · rw [hf, (hn i).2.1]; exact h.ord.1 i (hst.subset hi)
  · refine (h.ord.2.sublist hst).imp fun {a b} k => ?_
    rw [hf, hf]
    exact k.imp id fun k => ⟨k.1, fun o => k.2 (o.mono he)⟩
  · obtain ⟨e', h1, h2, h3⟩ := hfmt e hem
    rw [hf, h2, h3]; exact h.fmtn e' h1

/-- Only the order of things differs that does not matter. -/
theorem Tidy.heap {s t : St} (h : Tidy s) (e : t.heap = s.heap) (hfix : t.fixed = s.fixed) (hst : t.stack.Sublist s.stack)
    (hfmt : ∀ e, some e ∈ t.fmt → ∃ e', some e' ∈ s.fmt ∧ e.name = e'.name ∧ e.node = e'.node) : Tidy t := by
  have hn : ∀ i, t.n i = s.n i := fun i => by unfold St.n; rw [e]
  refine h.sub (heads_of e) (fun i => by rw [hn]) ?_ (fun c _ => by rw [hn]) (fun p _ c hc => hn p ▸ hc) hfix hst hfmt
  refine (h.kids.of_heap e).mono ?_
  rintro p (k | k)
  · exact .inl (hn p ▸ k)
  · exact .inr (hst.subset k)

theorem Tidy.core {s t : St} (h : Tidy s) (e : (t.heap, t.fixed, t.stack, t.fmt) = (s.heap, s.fixed, s.stack, s.fmt)) : Tidy t := by
  simp only [Prod.mk.injEq] at e
  obtain ⟨h1, h2, h3, h4⟩ := e
  exact h.heap h1 h2 (by rw [h3]; exact .refl _) fun e he => ⟨e, h4 ▸ he, rfl, rfl⟩

theorem Tidy.stackSub {s : St} (h : Tidy s) {l : List Nat} (hl : l.Sublist s.stack) : Tidy { s with stack := l } :=
  h.heap rfl rfl hl fun e he => ⟨e, he, rfl, rfl⟩

theorem Tidy.fmtSub {s : St} (h : Tidy s) {l : List (Option FEntry)} (hl : ∀ e, some e ∈ l → ∃ e', some e' ∈ s.fmt ∧ e.name = e'.name ∧ e.node = e'.node) :
    Tidy { s with fmt := l } := h.heap rfl rfl (.refl _) hl

theorem Tidy.fmtNew {s : St} (h : Tidy s) {l : List (Option FEntry)}
    (hl : ∀ e, some e ∈ l → ¬ Fixed s e.node ∧ e.name ∉ [c%"table", c%"template"]) : Tidy { s with fmt := l } :=
  have he : ∀ x y, Edge ({ s with fmt := l } : St) x y → Edge s x y := fun x y k => k
  ⟨h.fixed, h.stk, h.kids, h.cont, h.sort, h.rank, ⟨h.ord.1, h.ord.2.imp fun {a b} k => k.imp id fun k => ⟨k.1, fun o => k.2 (o.mono he)⟩⟩, hl, h.ctx, h.tie⟩

/-- Another stack. -/
theorem Tidy.restack {s : St} (h : Tidy s) {l : List Nat} (hl : ∀ i ∈ l, i < s.heap.length ∧
      (i ∈ s.stack ∨ (s.n i).ns ≠ poNs ∨ ((s.n i).children = [] ∧ (s.n i).content = none)) ∧ (Fixed s i ∨ (s.n i).kind ≠ .fragment))
    (hp : l.Pairwise fun a b => (Fixed s a ∧ Fixed s b) ∨ (¬ Fixed s b ∧ ¬ Over s b a)) : Tidy { s with stack := l } := by
  have hlive : ∀ p, Live ({ s with stack := l } : St) p → Live s p ∨ ((s.n p).children = [] ∧ (s.n p).content = none) := by
    rintro p (k | k)
    · exact .inl (.inl k)
    · rcases (hl p k).2.1 with k | k | k
      · exact .inl (.inr k)
      · exact .inl (.inl k)
      · exact .inr k
  have hlm : ∀ p c, Live ({ s with stack := l } : St) p → c ∈ (s.n p).children → Live s p := fun p c k hc => (hlive p k).resolve_right fun k => by
    rw [k.1] at hc; exact absurd hc (by simp)
  have he : ∀ x y, Edge ({ s with stack := l } : St) x y → Edge s x y := fun x y k => ⟨(hlive x k.1).resolve_right fun e => by
    rcases k.2 with k | k
    · have k : y ∈ (s.n x).children := k
      rw [e.1] at k; exact absurd k (by simp)
    · have k : (s.n x).content = some y := k
      rw [e.2] at k; exact absurd k (by simp), k.2⟩
  exact ⟨h.fixed, fun i hi => (hl i hi).1, fun p hp c hc => h.kids p (hlm p c hp hc) c hc, h.cont, fun p hp c hc => h.sort p (hlm p c hp hc) c hc, h.rank.mono he,
    ⟨fun i hi => (hl i hi).2.2, hp.imp fun {a b} k => k.imp id fun k => ⟨k.1, fun o => k.2 (o.mono he)⟩⟩, h.fmtn, h.ctx, fun x y hx p hp => h.tie x y hx p (he _ _ hp)⟩

/-- All open elements are fixed ones. -/
theorem Tidy.reset {s : St} (h : Tidy s) {l : List Nat} (hl : ∀ i ∈ l, Fixed s i) : Tidy { s with stack := l } :=
  h.restack (fun i hi => ⟨(h.fixed i (hl i hi)).1, .inr (.inl (h.fixed i (hl i hi)).2), .inl (hl i hi)⟩)
    (List.pairwise_of_forall_mem_list fun a ha b hb => .inl ⟨hl a ha, hl b hb⟩)

theorem Tidy.heapOnly {s t : St} (h : Tidy s) (he : ∃ k, t = { s with heap := k }) (hh : t.heads = s.heads) (hc : ∀ j, (t.n j).content = (s.n j).content)
    (hk : Kids (Live s) (fun _ => True) t) (hfr : ∀ c, (s.n c).kind = .fragment → (t.n c).parent = (s.n c).parent)
    (hsub : ∀ p, Live s p → ∀ c ∈ (t.n p).children, c ∈ (s.n p).children) : Tidy t := by
  obtain ⟨k, hkk⟩ := he
  have hst : t.stack = s.stack := by rw [hkk]
  have hlive : ∀ p, Live t p → Live s p := fun p hp => (live_frame hh hst p).1 hp
  refine h.sub hh hc (hk.mono hlive) hfr (fun p hp => hsub p (hlive p hp)) (by rw [hkk]; rfl) (by rw [hst]; exact .refl _) fun e he => ⟨e, ?_, rfl, rfl⟩
  rw [hkk] at he; exact he

/-- Changes of data and attributes. -/
theorem Tidy.data {s : St} (h : Tidy s) (i : Nat) (f : ENode → ENode) (h0 : ∀ n, (f n).head = n.head) (h1 : ∀ n, (f n).children = n.children)
    (h2 : ∀ n, (f n).parent = n.parent) (h4 : ∀ n, (f n).content = n.content) : Tidy (s.upd i f) :=
  h.heapOnly ⟨_, rfl⟩ (heads_upd _ _ _ h0) (fun j => content_upd _ _ _ _ h4)
    (h.kids.data i f h1 h2 fun n => by have := h0 n; simp only [ENode.head, Prod.mk.injEq] at this; exact this.2.2)
    (fun c _ => parent_upd _ _ _ _ h2) fun p _ c hc => by rw [kids_upd _ _ _ _ h1] at hc; exact hc

theorem Tidy.rankOver {s : St} {rk : Nat → Nat} (hr : ∀ p c, Edge s p c → rk p < rk c) {a b : Nat} (h : Over s a b) : a = b ∨ rk a < rk b := by
  induction h with
  | refl => exact .inl rfl
  | tail _ e ih =>
    right
    rcases ih with rfl | ih
    · exact hr _ _ e
    · exact Nat.lt_trans ih (hr _ _ e)

/-- No two nodes are below each other. -/
theorem Tidy.antisymm {s : St} (h : Tidy s) {a b : Nat} (h1 : Over s a b) (h2 : Over s b a) : a = b := by
  obtain ⟨rk, hr⟩ := h.rank
  rcases Tidy.rankOver hr h1 with k | k
  · exact k
  rcases Tidy.rankOver hr h2 with k' | k'
  · exact k'.symm
  · omega

theorem Over.last {s : St} {a b : Nat} (h : Over s a b) : a = b ∨ ∃ y, Over s a y ∧ Edge s y b := by
  cases h with
  | refl => exact .inl rfl
  | tail k e => exact .inr ⟨_, k, e⟩

theorem Over.first {s : St} {a b : Nat} (h : Over s a b) : a = b ∨ ∃ y, Edge s a y ∧ Over s y b := by
  induction h with
  | refl => exact .inl rfl
  | tail _ e ih =>
    rcases ih with rfl | ⟨y, h1, h2⟩
    · exact .inr ⟨_, e, .refl⟩
    · exact .inr ⟨y, h1, .tail h2 e⟩

/-- What is above the place for children of `x` is above `x`. -/
theorem Tidy.slot {s : St} (h : Tidy s) {b x : Nat} (hb : (s.n b).kind ≠ .fragment) (ho : Over s b (s.slot x)) : Over s b x := by
  unfold St.slot at ho
  split at ho
  · cases hc : (s.n x).content with
    | none => rw [hc] at ho; exact ho
    | some f =>
      rw [hc] at ho
      simp only [Option.getD_some] at ho
      have hf := h.cont x f hc
      rcases ho.last with k | ⟨y, h1, h2, h3⟩
      · subst k; exact absurd hf.2.2.2.1 hb
      · rcases h3 with h3 | h3
        · exact absurd hf.2.2.2.1 (h.sort y h2 f h3)
        · have := (h.cont y f h3).2.2.2.2
          rw [hf.2.2.2.2] at this
          have : x = y := by simpa using this
          rw [this]; exact h1
  · exact ho

theorem slot_congr {s t : St} (hh : t.heads = s.heads) (hc : ∀ i, (t.n i).content = (s.n i).content) (x : Nat) : t.slot x = s.slot x := by
  unfold St.slot
  rw [(ns_of_heads hh x).2.1, hc]

/-! ### Fewer edges -/

theorem Tidy.shrink {s : St} (h : Tidy s) (p : Nat) (l : List Nat) (hl : l.Sublist (s.n p).children) : Tidy (s.upd p fun n => { n with children := l }) := by
  refine h.heapOnly ⟨_, rfl⟩ (heads_upd _ _ _ fun _ => rfl) (fun j => content_upd _ _ _ _ fun _ => rfl) ?_ (fun c _ => parent_upd _ _ _ _ fun _ => rfl) ?_
  · intro j hj c hc
    rw [len_upd, ns_upd _ _ _ (fun n => { n with children := l }) fun _ => rfl, parent_upd _ _ _ (fun n => { n with children := l }) fun _ => rfl]
    rw [n_upd] at hc ⊢
    split at hc
    · next hx =>
      rw [if_pos hx]
      obtain ⟨rfl, _⟩ := hx
      obtain ⟨a, b, d⟩ := h.kids p hj c (hl.subset hc)
      refine ⟨a, b, fun hR => ⟨(d hR).1, ?_⟩⟩
      have h1 := hl.count_le c
      have h2 := List.count_pos_iff.2 hc
      have h3 := (d hR).2
      show l.count c = 1
      simp only at hc h2
      omega
    · next hx =>
      rw [if_neg hx]
      exact h.kids j hj c hc
  · intro j _ c hc
    rw [n_upd] at hc
    split at hc
    · next hx => rw [← hx.1]; exact hl.subset hc
    · exact hc

theorem Tidy.remove {s : St} (h : Tidy s) (p c : Nat) (q : Option Nat) (hk : (s.n c).kind ≠ .fragment) (hp : (s.n c).parent = some p ∨ Loose (Live s) s c) :
    Tidy ((s.upd p fun n => { n with children := n.children.erase c }).upd c fun n => { n with parent := q }) := by
  refine h.heapOnly ⟨_, rfl⟩ (heads_two _ _ _ _ _ (fun _ => rfl) fun _ => rfl) (fun j => content_two _ _ _ _ _ _ (fun _ => rfl) fun _ => rfl)
    (h.kids.remove p c q fun _ => hp).1 (fun f hf => ?_) fun j _ x hx => ?_
  · rw [n_remove]
    simp only
    rw [if_neg fun (k : c = f ∧ c < s.heap.length) => hk (k.1 ▸ hf)]
  · rw [n_remove] at hx
    simp only at hx
    split at hx
    · exact List.mem_of_mem_erase hx
    · exact hx

theorem Tidy.detach {s : St} (h : Tidy s) (c : Nat) (hk : (s.n c).kind ≠ .fragment) : Tidy (s.detach c) ∧ Loose (Live s) (s.detach c) c := by
  refine ⟨?_, (h.kids.detach c).2 trivial⟩
  unfold St.detach
  cases hp : (s.n c).parent with
  | none => exact h
  | some p =>
    simp only
    split
    · exact h.remove p c none hk (.inl hp)
    · exact h

theorem edge_detach {s : St} (c : Nat) {x y : Nat} (h : Edge (s.detach c) x y) : Edge s x y := by
  obtain ⟨h1, h2⟩ := h
  have hs : (s.detach c).stack = s.stack := by obtain ⟨k, hk⟩ := detach_frame s c; rw [hk]
  refine ⟨(live_frame (heads_detach s c) hs x).1 h1, h2.imp (fun k => ?_) fun k => by rw [← content_detach]; exact k⟩
  unfold St.detach at k
  split at k
  · exact k
  · split at k
    · rw [n_remove] at k
      simp only at k
      split at k
      · exact List.mem_of_mem_erase k
      · exact k
    · exact k

theorem Tidy.dropBody {s : St} (h : Tidy s) (x : Nat) (hx : s.html = some x) (hk : (s.n s.body).kind = .element) :
    Tidy ((s.upd x fun n => { n with children := n.children.erase s.body }).upd s.body fun n => { n with parent := none }) := by
  refine h.remove x s.body none (by rw [hk]; decide) ?_
  by_cases hl : Loose (Live s) s s.body
  · exact .inr hl
  · left
    unfold Loose at hl
    simp only [Classical.not_forall, Classical.not_not] at hl
    obtain ⟨p, hp, hm⟩ := hl
    have := h.body x hx p ⟨hp, .inl hm⟩
    subst this
    exact ((h.kids _ hp _ hm).2.2 trivial).1

theorem Tidy.clearBody {s : St} (h : Tidy s) : Tidy s.clearBody := by
  have hb := h.fixed s.body (.inr (.inr (.inr rfl)))
  have hbl : Live s s.body := .inl hb.2
  have hh := heads_clearBody s
  have hh0 : ((s.n s.body).children.foldl (fun s c => s.upd c fun n => { n with parent := none }) s).heads = s.heads :=
    heads_foldl (f := fun s c => s.upd c fun n => { n with parent := none }) (fun s c => heads_upd s c _ fun _ => rfl) _ _
  have hkids : ∀ j, (s.clearBody.n j).children = if s.body = j then [] else (s.n j).children := by
    intro j
    unfold St.clearBody
    rw [n_upd, len_of_heads hh0]
    by_cases hj : s.body = j
    · rw [if_pos ⟨hj, hb.1⟩, if_pos hj]
    · rw [if_neg fun k => hj k.1, if_neg hj]; exact (parents_none _ _ _).1
  have hpar : ∀ j, j ∉ (s.n s.body).children → (s.clearBody.n j).parent = (s.n j).parent := by
    intro j hj
    unfold St.clearBody
    exact (parent_upd _ _ _ (fun n => { n with children := [] }) fun _ => rfl).trans ((parents_none _ _ _).2 hj)
  refine h.heapOnly ?_ hh (fun j => ?_) ?_ (fun c hc => hpar c fun k => h.sort _ hbl c k hc) fun j _ c hc => ?_
  · obtain ⟨k, hk⟩ := foldl_heap (f := fun s c => s.upd c fun n => { n with parent := none }) (fun s c => ⟨_, rfl⟩) (s.n s.body).children s
    exact ⟨(({ s with heap := k } : St).upd s.body fun n => { n with children := [] }).heap, by unfold St.clearBody; rw [hk]; rfl⟩
  · unfold St.clearBody
    exact (content_upd _ _ _ (fun n => { n with children := [] }) fun _ => rfl).trans
      (content_foldl (f := fun s c => s.upd c fun n => { n with parent := none }) (fun s c j => content_upd s c j _ fun _ => rfl) _ _ j)
  · intro j hj c hc
    rw [hkids] at hc ⊢
    split at hc
    · exact absurd hc (by simp)
    · next hjb =>
      rw [if_neg hjb, len_of_heads hh, (ns_of_heads hh c).1]
      obtain ⟨a, b, d⟩ := h.kids j hj c hc
      refine ⟨a, b, fun hR => ?_⟩
      rw [hpar c fun k2 => hjb (h.kids.unique hbl hj hR k2 hc)]
      exact d hR
  · rw [hkids] at hc
    split at hc
    · exact absurd hc (by simp)
    · exact hc

/-! ### One more edge -/

theorem edge_link {s : St} (p pos c : Nat) {x y : Nat} (h : Edge (s.link p pos c) x y) : Edge s x y ∨ (x = p ∧ y = c) := by
  obtain ⟨h1, h2⟩ := h
  have h1 : Live s x := (live_frame (heads_link s p pos c) rfl x).1 h1
  rw [content_link] at h2
  rcases h2 with h2 | h2
  · rw [n_link] at h2
    simp only at h2
    split at h2
    · next hp =>
      rcases mem_insert.1 h2 with k | k
      · exact .inr ⟨hp.1.symm, k⟩
      · exact .inl ⟨h1, .inl k⟩
    · exact .inl ⟨h1, .inl h2⟩
  · exact .inl ⟨h1, .inr h2⟩

theorem Tidy.link {s : St} (h : Tidy s) (p pos c : Nat) (hc : c < s.heap.length) (hns : (s.n c).ns ≠ poNs) (hk : (s.n c).kind ≠ .fragment)
    (hl : Loose (Live s) s c) (hb : ∀ x, ¬ Tie s x c) (hno : p < s.heap.length → Live s p → ¬ Over s c p)
    (hord : p < s.heap.length → Live s p → s.stack.Pairwise fun a b => ¬ Fixed s b → ¬ (Over s b p ∧ Over s c a)) : Tidy (s.link p pos c) := by
  have hh := heads_link s p pos c
  have hn := ns_of_heads hh
  have hkids := h.kids.link p pos c hc hns fun _ => hl
  have hfr : ∀ f, (s.n f).kind = .fragment → ((s.link p pos c).n f).parent = (s.n f).parent := fun f hf => by
    rw [n_link]
    simp only
    rw [if_neg fun (k : c = f ∧ c < s.heap.length) => hk (k.1 ▸ hf)]
  by_cases hp : p < s.heap.length ∧ Live s p
  · have hno := hno hp.1 hp.2
    have hord := hord hp.1 hp.2
    have he : ∀ x y, Edge (s.link p pos c) x y → Edge s x y ∨ (x = p ∧ y = c) := fun x y => edge_link p pos c
    have hlive : ∀ x, Live (s.link p pos c) x ↔ Live s x := live_frame hh rfl
    refine ⟨fun i hi => ?_, fun i hi => ?_, hkids.mono fun x => (hlive x).1, fun q f hqf => ?_, fun q hq f hqf => ?_, h.rank.add he hno, ⟨fun i hi => ?_, ?_⟩, h.fmtn, h.ctx, fun x y hx q hq => ?_⟩
    · rw [len_link, (hn i).1]; exact h.fixed i hi
    · rw [len_link]; exact h.stk i hi
    · rw [content_link] at hqf
      have := h.cont q f hqf
      rw [len_link, (hn f).1, (hn q).1, (hn f).2.1, hfr f this.2.2.2.1]
      exact this
    · rw [(hn f).2.1]
      rcases he q f ⟨hq, .inl hqf⟩ with ⟨h1, h2⟩ | ⟨_, rfl⟩
      · rw [n_link] at hqf
        simp only at hqf
        split at hqf
        · rcases mem_insert.1 hqf with k | k
          · rw [k]; exact hk
          · exact h.sort q h1 f k
        · exact h.sort q h1 f hqf
      · exact hk
    · rw [(hn i).2.1]; exact h.ord.1 i hi
    · refine (h.ord.2.and hord).imp fun {a b} k => ?_
      obtain ⟨k1, k2⟩ := k
      refine k1.imp id fun k1 => ⟨k1.1, fun o => ?_⟩
      rcases o.add he with o | o
      · exact k1.2 o
      · exact k2 k1.1 o
    · rcases he _ _ hq with k | ⟨_, k⟩
      · exact h.tie x y hx q k
      · subst k; exact absurd hx (hb x)
  · refine h.heapOnly ⟨_, rfl⟩ hh (content_link s p pos c) hkids hfr fun q hq x hx => ?_
    rw [n_link] at hx
    simp only at hx
    split at hx
    · next k => exact absurd ⟨k.2, k.1 ▸ hq⟩ hp
    · exact hx

/-- The node is below no open element. -/
theorem Tidy.linkFree {s : St} (h : Tidy s) (p pos c : Nat) (hc : c < s.heap.length) (hns : (s.n c).ns ≠ poNs) (hk : (s.n c).kind ≠ .fragment)
    (hl : Loose (Live s) s c) (hb : ∀ x, ¬ Tie s x c) (hno : p < s.heap.length → Live s p → ¬ Over s c p)
    (hst : ∀ a ∈ s.stack, ¬ Over s c a) : Tidy (s.link p pos c) :=
  h.link p pos c hc hns hk hl hb hno fun _ _ => List.pairwise_of_forall_mem_list fun a ha _ _ _ k => hst a ha k.2

/-- The node goes below an element that comes earlier on the stack. -/
theorem Tidy.relink {s : St} (h : Tidy s) (p pos c x : Nat) (i j : Nat) (hi : s.stack[i]? = some x) (hj : s.stack[j]? = some c) (hij : i < j)
    (hf : ¬ Fixed s c) (hns : (s.n c).ns ≠ poNs) (hl : Loose (Live s) s c)
    (hP : p < s.heap.length → Live s p → ∀ b, (s.n b).kind ≠ .fragment → Over s b p → Over s b x) : Tidy (s.link p pos c) := by
  have hfr : ∀ b ∈ s.stack, ¬ Fixed s b → (s.n b).kind ≠ .fragment := fun b hb k => (h.ord.1 b hb).resolve_left k
  have hcm := List.mem_of_getElem? hj
  have hpw := List.pairwise_iff_getElem.1 h.ord.2
  obtain ⟨hi1, hi2⟩ := List.getElem?_eq_some_iff.1 hi
  obtain ⟨hj1, hj2⟩ := List.getElem?_eq_some_iff.1 hj
  have hcx : ∀ k (hk : k < s.stack.length), k < j → ¬ Over s c s.stack[k] := by
    intro k hk hkj
    rcases hpw k j hk hj1 hkj with o | o
    · rw [hj2] at o; exact absurd o.2 hf
    · rw [hj2] at o; exact o.2
  refine h.link p pos c (h.stk c hcm) hns (hfr c hcm hf) hl (fun _ k => hf (h.tied k).2) (fun h1 h2 o => ?_) fun h1 h2 => ?_
  · exact hcx i hi1 hij (hi2 ▸ hP h1 h2 c (hfr c hcm hf) o)
  · rw [List.pairwise_iff_getElem]
    intro a b ha hb hab hnf ⟨o1, o2⟩
    have o3 := hP h1 h2 _ (hfr _ (List.getElem_mem hb) hnf) o1
    have hbi : b ≤ i := by
      rcases Nat.lt_or_ge i b with k | k
      · rcases hpw i b hi1 hb k with o | o
        · exact absurd o.2 hnf
        · rw [hi2] at o; exact absurd o3 o.2
      · exact k
    exact hcx a ha (by omega) o2

/-! ### New nodes -/

/-- What is needed of new nodes: they have no children, and content only if it is new too. -/
structure Grows (s t : St) (l : List ENode) : Prop where
  heap : t.heap = s.heap ++ l
  kids : ∀ n ∈ l, n.children = []
  fixed : t.fixed = s.fixed
  stack : t.stack = s.stack
  fmt : t.fmt = s.fmt
  cont : ∀ i c, s.heap.length ≤ i → (t.n i).content = some c →
    i < c ∧ c < t.heap.length ∧ (t.n c).ns ≠ poNs ∧ (t.n i).ns ≠ poNs ∧ (t.n c).kind = .fragment ∧ (t.n c).parent = some i

theorem Grows.len {s t : St} {l : List ENode} (g : Grows s t l) : s.heap.length ≤ t.heap.length := by rw [g.heap]; simp

theorem Grows.live {s t : St} {l : List ENode} (g : Grows s t l) {p : Nat} (hp : p < s.heap.length) : Live t p ↔ Live s p := by
  unfold Live; rw [n_grow g.heap hp, g.stack]

theorem Grows.edge {s t : St} {l : List ENode} (h : Tidy s) (g : Grows s t l) {x y : Nat} (e : Edge t x y) :
    (x < s.heap.length ∧ y < s.heap.length ∧ Edge s x y) ∨ (s.heap.length ≤ x ∧ x < y) := by
  obtain ⟨h1, h2⟩ := e
  rcases Nat.lt_or_ge x s.heap.length with hx | hx
  · left
    have hl := (g.live hx).1 h1
    rw [n_grow g.heap hx] at h2
    refine ⟨hx, ?_, hl, h2⟩
    rcases h2 with h2 | h2
    · exact (h.kids x hl y h2).1
    · exact (h.cont x y h2).1
  · right
    refine ⟨hx, ?_⟩
    rcases h2 with h2 | h2
    · have := g.kids _ (n_grow' g.heap hx (mem_lt h2))
      rw [this] at h2; exact absurd h2 (by simp)
    · exact (g.cont x y hx h2).1

theorem Grows.over {s t : St} {l : List ENode} (h : Tidy s) (g : Grows s t l) {a b : Nat} (o : Over t a b) :
    (a < s.heap.length → Over s a b ∧ b < s.heap.length) ∧ (s.heap.length ≤ a → a ≤ b) := by
  induction o with
  | refl => exact ⟨fun k => ⟨.refl, k⟩, fun _ => Nat.le_refl _⟩
  | tail _ e ih =>
    rcases g.edge h e with ⟨h1, h2, h3⟩ | ⟨h1, h2⟩
    · refine ⟨fun k => ⟨.tail (ih.1 k).1 h3, h2⟩, fun k => ?_⟩
      have := ih.2 k
      omega
    · refine ⟨fun k => ?_, fun k => ?_⟩
      · have := (ih.1 k).2
        omega
      · have := ih.2 k
        omega

theorem Tidy.grow {s t : St} {l : List ENode} (h : Tidy s) (g : Grows s t l) : Tidy t ∧ ∀ c, s.heap.length ≤ c → Loose (Live t) t c := by
  have hk := h.kids.grow (L' := Live t) (R' := fun _ => True) g.heap g.kids (fun p hp => (g.live hp).1) fun _ _ _ => trivial
  have hlen := g.len
  have hf := fixed_of g.fixed
  refine ⟨⟨fun i hi => ?_, fun i hi => ?_, hk.1, fun q f hqf => ?_, fun q hq f hqf => ?_, ?_, ⟨fun i hi => ?_, ?_⟩, fun e he => ?_, fun c hc => (hf c).2 (h.ctx c (ctx_of g.fixed ▸ hc)), fun x y hx q hq => ?_⟩, hk.2⟩
  · obtain ⟨a, b⟩ := h.fixed i ((hf i).1 hi)
    rw [n_grow g.heap a]
    exact ⟨Nat.lt_of_lt_of_le a hlen, b⟩
  · rw [g.stack] at hi
    exact Nat.lt_of_lt_of_le (h.stk i hi) hlen
  · rcases Nat.lt_or_ge q s.heap.length with hx | hx
    · rw [n_grow g.heap hx] at hqf ⊢
      have := h.cont q f hqf
      rw [n_grow g.heap this.1]
      exact ⟨Nat.lt_of_lt_of_le this.1 hlen, this.2⟩
    · exact (g.cont q f hx hqf).2
  · rcases Nat.lt_or_ge q s.heap.length with hx | hx
    · rw [n_grow g.heap hx] at hqf
      have hq := (g.live hx).1 hq
      rw [n_grow g.heap (h.kids q hq f hqf).1]
      exact h.sort q hq f hqf
    · have := g.kids _ (n_grow' g.heap hx (mem_lt hqf))
      rw [this] at hqf; exact absurd hqf (by simp)
  · obtain ⟨rk, hr⟩ := h.rank
    refine ⟨fun y => if y < s.heap.length then rk y else y, fun x y e => ?_⟩
    dsimp only
    rcases g.edge h e with ⟨h1, h2, h3⟩ | ⟨h1, h2⟩
    · rw [if_pos h1, if_pos h2]; exact hr x y h3
    · rw [if_neg (by omega), if_neg (by omega)]; exact h2
  · rw [g.stack] at hi
    rw [hf, n_grow g.heap (h.stk i hi)]
    exact h.ord.1 i hi
  · have h2 := h.ord.2
    rw [g.stack]
    refine List.Pairwise.imp_of_mem (fun {a b} ha hb k => ?_) h2
    rw [hf, hf]
    exact k.imp id fun k => ⟨k.1, fun o => k.2 ((g.over h o).1 (h.stk b hb)).1⟩
  · rw [g.fmt] at he
    rw [hf]
    exact h.fmtn e he
  · replace hx := (tie_of g.fixed x y).1 hx
    have hb := (h.fixed y (h.tied hx).2).1
    rcases g.edge h hq with ⟨h1, h2, h3⟩ | ⟨h1, h2⟩
    · exact h.tie x y hx q h3
    · omega

/-- A new node: everything the parser holds is older, and nothing below it is. -/
structure Fresh (s : St) (r : Nat) : Prop where
  lt : r < s.heap.length
  stk : ∀ a ∈ s.stack, a < r
  fix : ∀ i, Fixed s i → i < r
  kind : (s.n r).kind ≠ .fragment
  ns : (s.n r).ns ≠ poNs
  over : ∀ b, Over s r b → r ≤ b

theorem Fresh.notFixed {s : St} {r : Nat} (h : Fresh s r) : ¬ Fixed s r := fun k => Nat.lt_irrefl _ (h.fix r k)

theorem Grows.fresh {s t : St} {l : List ENode} (h : Tidy s) (g : Grows s t l) (hl : s.heap.length < t.heap.length) (hk : (t.n s.heap.length).kind ≠ .fragment)
    (hns : (t.n s.heap.length).ns ≠ poNs) : Fresh t s.heap.length :=
  ⟨hl, fun a ha => h.stk a (g.stack ▸ ha), fun i hi => (h.fixed i ((fixed_of g.fixed i).1 hi)).1, hk, hns, fun _ o => (g.over h o).2 (Nat.le_refl _)⟩

theorem Tidy.linkNew {s : St} (h : Tidy s) {r : Nat} (f : Fresh s r) (hl : Loose (Live s) s r) (p pos : Nat) (hp : p < r ∨ s.heap.length ≤ p) :
    Tidy (s.link p pos r) ∧ Fresh (s.link p pos r) r := by
  have hh := heads_link s p pos r
  have hn := ns_of_heads hh
  have hno : p < s.heap.length → Live s p → ¬ Over s r p := fun k _ o => by
    have := f.over p o
    omega
  refine ⟨h.linkFree p pos r f.lt f.ns f.kind hl (fun _ k => f.notFixed (h.tied k).2) hno fun a ha o => ?_, ?_, f.stk, f.fix, ?_, ?_, fun b o => ?_⟩
  · have := f.over a o
    have := f.stk a ha
    omega
  · rw [len_link]; exact f.lt
  · rw [(hn r).2.1]; exact f.kind
  · rw [(hn r).1]; exact f.ns
  · rcases Nat.lt_or_ge p s.heap.length with hlt | hge
    · rcases o.add (s := s) (p := p) (c := r) (fun x y => edge_link p pos r) with o | o
      · exact f.over b o
      · have := f.over p o.1
        omega
    · refine f.over b (o.mono fun x y e => ?_)
      rcases edge_link p pos r e with e' | ⟨rfl, rfl⟩
      · exact e'
      · exfalso
        rcases e.2 with k | k
        · have := mem_lt k
          rw [len_link] at this
          omega
        · rw [content_link, n_ge s hge] at k
          exact absurd k (by simp [default, instInhabitedENode, instInhabitedENode.default])

theorem Tidy.push {s : St} (h : Tidy s) (r : Nat) (hr : r < s.heap.length) (hns : (s.n r).ns ≠ poNs ∨ ((s.n r).children = [] ∧ (s.n r).content = none))
    (hk : (s.n r).kind ≠ .fragment) (hf : ¬ Fixed s r) (ho : ∀ a ∈ s.stack, ¬ Over s r a) : Tidy { s with stack := s.stack ++ [r] } := by
  refine h.restack (fun i hi => ?_) ?_
  · rcases List.mem_append.1 hi with k | k
    · exact ⟨h.stk i k, .inl k, h.ord.1 i k⟩
    · have : i = r := by simpa using k
      subst this
      exact ⟨hr, .inr hns, .inr hk⟩
  · rw [List.pairwise_append]
    refine ⟨h.ord.2, by simp, fun a ha b hb => ?_⟩
    have : b = r := by simpa using hb
    subst this
    exact .inr ⟨hf, ho a ha⟩

theorem Tidy.pushFresh {s : St} (h : Tidy s) {r : Nat} (f : Fresh s r) : Tidy { s with stack := s.stack ++ [r] } :=
  h.push r f.lt (.inl f.ns) f.kind f.notFixed fun a ha o => by
    have := f.over a o
    have := f.stk a ha
    omega

theorem Fresh.core {s t : St} {r : Nat} (f : Fresh s r) (e : (t.heap, t.fixed, t.stack) = (s.heap, s.fixed, s.stack)) : Fresh t r := by
  simp only [Prod.mk.injEq] at e
  obtain ⟨h1, h2, h3⟩ := e
  have hn : ∀ i, t.n i = s.n i := fun i => by unfold St.n; rw [h1]
  refine ⟨by rw [h1]; exact f.lt, by rw [h3]; exact f.stk, fun i hi => f.fix i ((fixed_of h2 i).1 hi), by rw [hn]; exact f.kind, by rw [hn]; exact f.ns, fun b o => ?_⟩
  refine f.over b (o.mono fun x y k => ?_)
  obtain ⟨k1, k2⟩ := k
  unfold Live at k1
  rw [hn] at k1 k2
  rw [h3] at k1
  exact ⟨k1, k2⟩

/-- Children one after another, none of them above an open element. -/
theorem Tidy.appendAll (x : Nat) : ∀ (l : List Nat) {s : St}, Tidy s → x ∈ s.stack → l.Nodup →
    (∀ c ∈ l, c < s.heap.length ∧ (s.n c).ns ≠ poNs ∧ (s.n c).kind ≠ .fragment ∧ (∀ x, ¬ Tie s x c) ∧ Loose (Live s) s c ∧ ∀ a ∈ s.stack, ¬ Over s c a) →
    Tidy (l.foldl (fun s c => s.append (s.slot x) c) s) := by
  intro l
  induction l with
  | nil => exact fun h _ _ _ => h
  | cons c l ih =>
    intro s h hx hd hl
    obtain ⟨c1, c2, c3, c4, c5, c6⟩ := hl c (by simp)
    rw [List.nodup_cons] at hd
    have hh := heads_append s (s.slot x) c
    have hfrm := append_frame s (s.slot x) c
    have hstk : (s.append (s.slot x) c).stack = s.stack := by obtain ⟨k, hk⟩ := hfrm; rw [hk]
    have htie : ∀ x' y, Tie (s.append (s.slot x) c) x' y ↔ Tie s x' y := fun x' y => by obtain ⟨k, hk⟩ := hfrm; rw [hk]; exact Iff.rfl
    have hn := ns_of_heads hh
    rw [List.foldl_cons]
    have key : Tidy (s.append (s.slot x) c) ∧ (∀ u v, Edge (s.append (s.slot x) c) u v → Edge s u v ∨ (u = s.slot x ∧ v = c)) ∧
        ∀ y, y ≠ c → Loose (Live s) s y → Loose (Live s) (s.append (s.slot x) c) y := by
      have hlink : Tidy (s.linkLast (s.slot x) c) ∧ (∀ u v, Edge (s.linkLast (s.slot x) c) u v → Edge s u v ∨ (u = s.slot x ∧ v = c)) ∧
          ∀ y, y ≠ c → Loose (Live s) s y → Loose (Live s) (s.linkLast (s.slot x) c) y := by
        rw [linkLast_eq]
        exact ⟨h.linkFree _ _ c c1 c2 c3 c5 c4 (fun _ _ o => c6 x hx (h.slot c3 o)) c6, fun u v => edge_link _ _ _, fun y hy k => k.link _ _ _ hy⟩
      have hdata : ∀ l', Tidy (s.upd l' fun n => { n with data := n.data ++ (s.n c).data }) ∧
          (∀ u v, Edge (s.upd l' fun n => { n with data := n.data ++ (s.n c).data }) u v → Edge s u v ∨ (u = s.slot x ∧ v = c)) ∧
          ∀ y, y ≠ c → Loose (Live s) s y → Loose (Live s) (s.upd l' fun n => { n with data := n.data ++ (s.n c).data }) y := by
        intro l'
        refine ⟨h.data l' _ (fun _ => rfl) (fun _ => rfl) (fun _ => rfl) fun _ => rfl, fun u v e => .inl ⟨?_, ?_⟩, fun y _ k => k.same fun i => kids_upd _ _ _ _ fun _ => rfl⟩
        · exact (live_frame (heads_upd s l' (fun n => { n with data := n.data ++ (s.n c).data }) fun _ => rfl) rfl u).1 e.1
        · have := e.2
          rw [kids_upd _ _ _ (fun n => { n with data := n.data ++ (s.n c).data }) fun _ => rfl, content_upd _ _ _ (fun n => { n with data := n.data ++ (s.n c).data }) fun _ => rfl] at this
          exact this
      unfold St.append
      split
      · split
        · exact hdata _
        · exact hlink
      · exact hlink
    refine ih key.1 (hstk ▸ hx) hd.2 fun y hy => ?_
    obtain ⟨d1, d2, d3, d4, d5, d6⟩ := hl y (by simp [hy])
    have hyc : y ≠ c := fun e => hd.1 (e ▸ hy)
    rw [len_of_heads hh, (hn y).1, (hn y).2.1, hstk]
    refine ⟨d1, d2, d3, fun x' k => d4 x' ((htie x' y).1 k), fun p hp => key.2.2 y hyc d5 p ((live_frame hh hstk p).1 hp), fun a ha o => ?_⟩
    rcases o.add key.2.1 with o | o
    · exact d6 a ha o
    · exact d6 x hx (h.slot d3 o.1)

theorem foldl_slot (x : Nat) : ∀ (l : List Nat) (s : St) (p : Nat), p = s.slot x →
    l.foldl (fun s c => s.append p c) s = l.foldl (fun s c => s.append (s.slot x) c) s := by
  intro l
  induction l with
  | nil => exact fun _ _ _ => rfl
  | cons c l ih =>
    intro s p hp
    rw [List.foldl_cons, List.foldl_cons, ← hp]
    exact ih _ p (by rw [slot_congr (heads_append s p c) fun i => content_append s p c i]; exact hp)

theorem foldl_restack (p : Nat) (k : List Nat) : ∀ (l : List Nat) (s : St),
    ({ l.foldl (fun s c => s.append p c) s with stack := k } : St) = l.foldl (fun s c => s.append p c) { s with stack := k } := by
  intro l
  induction l with
  | nil => exact fun _ => rfl
  | cons c l ih =>
    intro s
    rw [List.foldl_cons, List.foldl_cons, ih]
    congr 1
    unfold St.append
    have h1 : ∀ i, ({ s with stack := k } : St).n i = s.n i := fun _ => rfl
    have h2 : ∀ i, ({ s with stack := k } : St).isText i = s.isText i := fun _ => rfl
    rw [h1]
    split
    · rw [h2, h2]
      split <;> rfl
    · rfl

/-- One of the parser's own templates is closed. -/
theorem Tidy.closePo {s : St} (h : Tidy s) (i node x : Nat) (hi : s.stack[i]? = some node) (hns : (s.n node).ns = poNs) (hx : x ∈ s.stack.take i) :
    Tidy { ((s.n node).children.foldl (fun s c => s.append (s.slot x) c) s) with stack := s.stack.take i } := by
  have hmem : node ∈ s.stack := List.mem_of_getElem? hi
  have hl : Live s node := .inr hmem
  obtain ⟨hi1, hi2⟩ := List.getElem?_eq_some_iff.1 hi
  have hnf : ¬ Fixed s node := fun k => (h.fixed node k).2 hns
  have hno : ∀ a ∈ s.stack.take i, ¬ Over s node a := by
    intro a ha
    obtain ⟨k, hk, rfl⟩ := List.mem_iff_getElem.1 ha
    rw [List.length_take] at hk
    rw [List.getElem_take]
    rcases List.pairwise_iff_getElem.1 h.ord.2 k i (by omega) hi1 (by omega) with o | o
    · rw [hi2] at o; exact absurd o.2 hnf
    · rw [hi2] at o; exact o.2
  have hnot : node ∉ s.stack.take i := fun k => hno node k .refl
  have h0 : Tidy { s with stack := s.stack.take i } := h.stackSub (List.take_sublist _ _)
  have hsub : ∀ p, Live ({ s with stack := s.stack.take i } : St) p → Live s p := by
    rintro p (k | k)
    · exact .inl k
    · exact .inr (List.mem_of_mem_take k)
  have hdead : ¬ Live ({ s with stack := s.stack.take i } : St) node := by
    rintro (k | k)
    · exact k hns
    · exact hnot k
  have hsl : s.slot x = ({ s with stack := s.stack.take i } : St).slot x := rfl
  rw [← foldl_slot x _ s _ rfl, foldl_restack, hsl, foldl_slot x _ _ _ rfl]
  refine Tidy.appendAll x _ h0 hx ?_ fun c hc => ?_
  · rw [List.nodup_iff_count]
    intro c
    by_cases hc : c ∈ (s.n node).children
    · exact Nat.le_of_eq ((h.kids node hl c hc).2.2 trivial).2
    · rw [List.count_eq_zero_of_not_mem hc]; omega
  · obtain ⟨a, b, d⟩ := h.kids node hl c hc
    refine ⟨a, b, h.sort node hl c hc, fun y hy => ?_, fun p hp hm => ?_, fun y hy o => ?_⟩
    · have hy : Tie s y c := hy
      have := h.tie y c hy node ⟨hl, .inl hc⟩
      exact hnf (this ▸ (h.tied hy).1)
    · exact hdead (h.kids.unique hl (hsub p hp) trivial hc hm ▸ hp)
    · have o2 : Over s c y := o.mono fun u v e => ⟨hsub u e.1, e.2⟩
      exact hno y hy (Over.head ⟨hl, .inl hc⟩ o2)

/-! ### The new formatting element between the furthest block and its children -/

theorem kids_linkAll (m : Nat) : ∀ (l : List Nat) (s : St), m < s.heap.length → ∀ j,
    ((l.foldl (fun s c => s.linkLast m c) s).n j).children = if j = m then (s.n m).children ++ l else (s.n j).children := by
  intro l
  induction l with
  | nil =>
    intro s _ j
    split
    · next k => subst k; simp
    · rfl
  | cons c l ih =>
    intro s hm j
    have hl : (s.linkLast m c).heap.length = s.heap.length := len_of_heads (heads_linkLast s m c)
    have h1 : ∀ j, ((s.linkLast m c).n j).children = if j = m then (s.n m).children ++ [c] else (s.n j).children := by
      intro j
      rw [linkLast_eq, n_link]
      simp only
      by_cases hj : j = m
      · subst hj; rw [if_pos ⟨rfl, hm⟩, if_pos rfl, take_length_append]
      · rw [if_neg fun k => hj k.1.symm, if_neg hj]
    rw [List.foldl_cons, ih _ (by omega), h1, if_pos rfl]
    split
    · simp
    · next hj => rw [h1, if_neg hj]

theorem parent_linkAll (m : Nat) : ∀ (l : List Nat) (s : St) (j : Nat), j ∉ l → ((l.foldl (fun s c => s.linkLast m c) s).n j).parent = (s.n j).parent := by
  intro l
  induction l with
  | nil => exact fun _ _ _ => rfl
  | cons c l ih =>
    intro s j hj
    rw [List.foldl_cons, ih _ _ fun k => hj (by simp [k]), linkLast_eq, n_link]
    simp only
    rw [if_neg fun k => hj (by simp [k.1])]

theorem Tidy.wrap {s : St} (h : Tidy s) (b m : Nat) (hb : b < s.heap.length) (hbns : (s.n b).ns ≠ poNs) (hbf : ¬ Fixed s b) (hmk : (s.n m).kind = .element)
    (hf : Fresh s m) (hc : (s.n m).content = none) (hmc : (s.n m).children = []) (hloose : Loose (Live s) s m) (hne : m ≠ b) :
    Tidy ((s.moveChildren b m).appendMoved b m) ∧ Edge ((s.moveChildren b m).appendMoved b m) (s.slot b) m := by
  have hm := hf.lt
  have hmns := hf.ns
  have hbl : Live s b := .inl hbns
  have hh0 : (s.upd b fun n => { n with children := [] }).heads = s.heads := heads_upd _ _ _ fun _ => rfl
  have hmove : s.moveChildren b m = (s.n b).children.foldl (fun s c => s.linkLast m c) (s.upd b fun n => { n with children := [] }) := by
    unfold St.moveChildren
    exact appendMoved_foldl m _ _ (by rw [(ns_of_heads hh0 m).2.1]; exact hmk)
  have hfr0 : ∃ k, s.moveChildren b m = { s with heap := k } := by
    obtain ⟨k, hk⟩ := foldl_heap (f := fun s c => s.linkLast m c) (fun s c => ⟨_, rfl⟩) (s.n b).children (s.upd b fun n => { n with children := [] })
    exact ⟨k, by rw [hmove, hk]; rfl⟩
  have hh1 : (s.moveChildren b m).heads = s.heads := heads_moveChildren s b m
  have hc1 : ∀ j, ((s.moveChildren b m).n j).content = (s.n j).content := fun j => by
    rw [hmove]
    exact (content_foldl (f := fun s c => s.linkLast m c) (fun s c j => content_linkLast s m c j) _ _ j).trans (content_upd _ _ _ _ fun _ => rfl)
  have hslot : (s.moveChildren b m).slot b = s.slot b := slot_congr hh1 hc1 b
  have happ : (s.moveChildren b m).appendMoved b m = (s.moveChildren b m).linkLast (s.slot b) m := by unfold St.appendMoved; rw [hslot]
  -- the place for children
  have hcont : s.slot b ≠ b → (s.n b).content = some (s.slot b) ∧ (s.n (s.slot b)).kind = .fragment ∧ (s.n (s.slot b)).parent = some b := by
    intro k
    unfold St.slot at k ⊢
    split at k
    · next hk =>
      rw [if_pos hk]
      cases hx : (s.n b).content with
      | none => rw [hx] at k; exact absurd rfl k
      | some f =>
        have := h.cont b f hx
        exact ⟨rfl, this.2.2.2⟩
    · exact absurd rfl k
  have hsm : s.slot b ≠ m := by
    intro k
    by_cases hk : s.slot b = b
    · exact hne (k.symm.trans hk)
    · have := (hcont hk).2.1
      rw [k, hmk] at this
      exact absurd this (by decide)
  have hslt : s.slot b < s.heap.length := by
    by_cases hk : s.slot b = b
    · rw [hk]; exact hb
    · exact (h.cont b _ (hcont hk).1).1
  have hslive : Live s (s.slot b) := by
    by_cases hk : s.slot b = b
    · rw [hk]; exact hbl
    · exact .inl (h.cont b _ (hcont hk).1).2.1
  -- children
  have hk0 : ∀ j, ((s.moveChildren b m).n j).children = if j = m then (s.n b).children else if j = b then [] else (s.n j).children := by
    intro j
    rw [hmove, kids_linkAll _ _ _ (by rw [len_upd]; exact hm)]
    have hm0 : ((s.upd b fun n => { n with children := [] }).n m).children = [] := by rw [n_upd_ne _ _ hne.symm]; exact hmc
    rw [hm0, List.nil_append, n_upd]
    by_cases hj : j = m
    · rw [if_pos hj, if_pos hj]
    · rw [if_neg hj, if_neg hj]
      by_cases hjb : j = b
      · subst hjb; rw [if_pos ⟨rfl, hb⟩, if_pos rfl]
      · rw [if_neg fun k => hjb k.1.symm, if_neg hjb]
  have hh : ((s.moveChildren b m).appendMoved b m).heads = s.heads := by rw [happ]; exact (heads_linkLast _ _ _).trans hh1
  have hfr : ∃ k, (s.moveChildren b m).appendMoved b m = { s with heap := k } := by
    obtain ⟨k, hk⟩ := hfr0
    exact ⟨_, by rw [happ, hk]; rfl⟩
  have hct : ∀ j, (((s.moveChildren b m).appendMoved b m).n j).content = (s.n j).content := fun j => by rw [happ, content_linkLast]; exact hc1 j
  have hkt : ∀ j, (((s.moveChildren b m).appendMoved b m).n j).children =
      if j = s.slot b then ((s.moveChildren b m).n j).children ++ [m] else ((s.moveChildren b m).n j).children := by
    intro j
    rw [happ, linkLast_eq, n_link]
    simp only
    rw [len_of_heads hh1]
    by_cases hj : j = s.slot b
    · subst hj; rw [if_pos ⟨rfl, hslt⟩, if_pos rfl, take_length_append]
    · rw [if_neg fun k => hj k.1.symm, if_neg hj]
  -- Kids
  have hkids0 : Kids (Live s) (fun _ => True) (s.upd b fun n => { n with children := [] }) := by
    have := (h.shrink b [] (List.nil_sublist _)).kids
    exact this.mono fun p hp => (live_frame hh0 rfl p).2 hp
  have hall := hkids0.linkAll m (s.n b).children (by
    intro c hc
    obtain ⟨a, bb, d⟩ := h.kids b hbl c hc
    rw [len_upd, (ns_of_heads hh0 c).1]
    refine ⟨a, bb, fun hR => ⟨fun j hj hx => ?_, (d hR).2⟩⟩
    rw [n_upd] at hx
    split at hx
    · exact absurd hx (by simp)
    · next hjb =>
      have := h.kids.unique hbl hj hR hc hx
      exact hjb ⟨this, hb⟩)
  have hmb : m ∉ (s.n b).children := hloose b hbl
  have hl2 : Loose (Live s) (s.upd b fun n => { n with children := [] }) m := fun j hj hx => by
    rw [n_upd] at hx
    split at hx
    · exact absurd hx (by simp)
    · exact hloose j hj hx
  have hloose2 := hall.2 m hmb hl2
  rw [← hmove] at hall hloose2
  have hkidsT : Kids (Live s) (fun _ => True) ((s.moveChildren b m).appendMoved b m) := by
    rw [happ]
    exact hall.1.linkLast _ m (by rw [len_of_heads hh1]; exact hm) (by rw [(ns_of_heads hh1 m).1]; exact hmns) fun _ => hloose2
  have hpar : ∀ f, (s.n f).kind = .fragment → (((s.moveChildren b m).appendMoved b m).n f).parent = (s.n f).parent := by
    intro f hfk
    have h1 : f ≠ m := fun e => by rw [e, hmk] at hfk; exact absurd hfk (by decide)
    have h2 : f ∉ (s.n b).children := fun e => h.sort b hbl f e hfk
    rw [happ, linkLast_eq, n_link]
    simp only
    rw [if_neg fun k => h1 k.1.symm, hmove, parent_linkAll _ _ _ _ h2]
    exact parent_upd _ _ _ _ fun _ => rfl
  -- edges
  have hstk : ((s.moveChildren b m).appendMoved b m).stack = s.stack := by obtain ⟨k, hk⟩ := hfr; rw [hk]
  have hfmt : ((s.moveChildren b m).appendMoved b m).fmt = s.fmt := by obtain ⟨k, hk⟩ := hfr; rw [hk]
  have hfix : ((s.moveChildren b m).appendMoved b m).fixed = s.fixed := by obtain ⟨k, hk⟩ := hfr; rw [hk]; rfl
  have hlive : ∀ x, Live ((s.moveChildren b m).appendMoved b m) x ↔ Live s x := live_frame hh hstk
  have hn := ns_of_heads hh
  have hff := fixed_of hfix
  have hcase : ∀ x y, Live s x → y ∈ (((s.moveChildren b m).appendMoved b m).n x).children →
      (x = s.slot b ∧ y = m) ∨ (x = m ∧ y ∈ (s.n b).children) ∨ (x ≠ m ∧ y ∈ (s.n x).children) := by
    intro x y _ hy
    rw [hkt, hk0] at hy
    have base : y ∈ (if x = m then (s.n b).children else if x = b then [] else (s.n x).children) →
        (x = m ∧ y ∈ (s.n b).children) ∨ (x ≠ m ∧ y ∈ (s.n x).children) := by
      intro hy
      split at hy
      · next k => exact .inl ⟨k, hy⟩
      · next k =>
        split at hy
        · exact absurd hy (by simp)
        · exact .inr ⟨k, hy⟩
    split at hy
    · next k =>
      rcases List.mem_append.1 hy with hy | hy
      · exact .inr (base hy)
      · exact .inl ⟨k, by simpa using hy⟩
    · exact .inr (base hy)
  have hedge : ∀ x y, Edge ((s.moveChildren b m).appendMoved b m) x y → (x = s.slot b ∧ y = m) ∨ (x = m ∧ y ∈ (s.n b).children) ∨ (x ≠ m ∧ Edge s x y) := by
    rintro x y ⟨h1, h2⟩
    have h1 := (hlive x).1 h1
    rcases h2 with h2 | h2
    · rcases hcase x y h1 h2 with k | k | k
      · exact .inl k
      · exact .inr (.inl k)
      · exact .inr (.inr ⟨k.1, h1, .inl k.2⟩)
    · rw [hct] at h2
      refine .inr (.inr ⟨fun e => ?_, h1, .inr h2⟩)
      rw [e, hc] at h2; exact absurd h2 (by simp)
  have hmno : ∀ x, ¬ Edge s x m := by
    rintro x ⟨h1, h2 | h2⟩
    · exact hloose x h1 h2
    · have := (h.cont x m h2).2.2.2.1
      rw [hmk] at this; exact absurd this (by decide)
  have hedgeM : Edge ((s.moveChildren b m).appendMoved b m) (s.slot b) m := by
    refine ⟨(hlive _).2 hslive, .inl ?_⟩
    rw [hkt, if_pos rfl]; simp
  refine ⟨⟨fun i hi => ?_, fun i hi => ?_, hkidsT.mono fun x => (hlive x).1, fun q f hqf => ?_, fun q hq f hqf => ?_, ?_, ⟨fun i hi => ?_, ?_⟩, fun e he => ?_, fun c hc => (hff c).2 (h.ctx c (ctx_of hfix ▸ hc)), fun x y hx q hq => ?_⟩, hedgeM⟩
  · rw [len_of_heads hh, (hn i).1]; exact h.fixed i ((hff i).1 hi)
  · rw [len_of_heads hh]; exact h.stk i (hstk ▸ hi)
  · rw [hct] at hqf
    have := h.cont q f hqf
    rw [len_of_heads hh, (hn f).1, (hn q).1, (hn f).2.1, hpar f this.2.2.2.1]
    exact this
  · rw [(hn f).2.1]
    have hq := (hlive q).1 hq
    rcases hcase q f hq hqf with k | k | k
    · rw [k.2, hmk]; decide
    · exact h.sort b hbl f k.2
    · exact h.sort q hq f k.2
  · obtain ⟨rk, hr⟩ := h.rank
    refine ⟨fun y => if y = m then 3 * rk b + 2 else if y = s.slot b ∧ s.slot b ≠ b then 3 * rk b + 1 else 3 * rk y, fun x y e => ?_⟩
    dsimp only
    rcases hedge x y e with ⟨rfl, rfl⟩ | ⟨rfl, hy⟩ | ⟨hx, e⟩
    · rw [if_neg hsm, if_pos rfl]
      by_cases k : s.slot b = b
      · rw [if_neg fun c => c.2 k, k]; omega
      · rw [if_pos ⟨rfl, k⟩]; omega
    · have h1 : y ≠ x := fun k => hmb (k ▸ hy)
      have h2 : ¬ (y = s.slot b ∧ s.slot b ≠ b) := fun k => h.sort b hbl y hy (by rw [k.1]; exact (hcont k.2).2.1)
      have := hr b y ⟨hbl, .inl hy⟩
      rw [if_pos rfl, if_neg h1, if_neg h2]; omega
    · have hym : y ≠ m := fun k => hmno x (k ▸ e)
      have := hr x y e
      rw [if_neg hx, if_neg hym]
      by_cases hy : y = s.slot b ∧ s.slot b ≠ b
      · rw [if_pos hy]
        have hxb : x = b := by
          obtain ⟨hy, hs⟩ := hy
          rcases e.2 with k | k
          · exact absurd (hy ▸ (hcont hs).2.1) (h.sort x e.1 y k)
          · have h1 := (h.cont x y k).2.2.2.2
            rw [hy, (hcont hs).2.2] at h1
            simpa using h1.symm
        rw [hxb, if_neg fun k => hy.2 k.1.symm]; omega
      · rw [if_neg hy]
        by_cases hxs : x = s.slot b ∧ s.slot b ≠ b
        · rw [if_pos hxs]
          have := hr b x ⟨hbl, .inr (by rw [hxs.1]; exact (hcont hxs.2).1)⟩
          omega
        · rw [if_neg hxs]; omega
  · rw [hstk] at hi
    rw [hff, (hn i).2.1]; exact h.ord.1 i hi
  · rw [hstk]
    refine List.Pairwise.imp_of_mem (fun {a u} ha hu k => ?_) h.ord.2
    rw [hff, hff]
    refine k.imp id fun k => ⟨k.1, fun o => k.2 ?_⟩
    have huf := (h.ord.1 u hu).resolve_left k.1
    have main : ∀ v, Over ((s.moveChildren b m).appendMoved b m) u v → Over s u (if v = m then b else v) := by
      intro v o
      have hum : u ≠ m := fun e => Nat.lt_irrefl _ (e ▸ hf.stk u hu)
      induction o with
      | refl => rw [if_neg hum]; exact .refl
      | @tail v w _ e ih =>
        rcases hedge _ _ e with ⟨rfl, rfl⟩ | ⟨rfl, hy⟩ | ⟨hx, e⟩
        · rw [if_neg hsm] at ih
          rw [if_pos rfl]; exact h.slot huf ih
        · rw [if_pos rfl] at ih
          rw [if_neg fun (k : w = v) => hmb (k ▸ hy)]
          exact .tail ih ⟨hbl, .inl hy⟩
        · rw [if_neg hx] at ih
          rw [if_neg fun (k : w = m) => hmno _ (k ▸ e)]
          exact .tail ih e
    have := main a o
    rwa [if_neg fun e => Nat.lt_irrefl _ (e ▸ hf.stk a ha)] at this
  · rw [hfmt] at he
    rw [hff]; exact h.fmtn e he
  · replace hx := (tie_of hfix x y).1 hx
    rcases hedge q _ hq with ⟨_, k⟩ | ⟨_, k⟩ | ⟨_, k⟩
    · exact absurd (k ▸ (h.tied hx).2) hf.notFixed
    · have := h.tie x y hx b ⟨hbl, .inl k⟩
      exact absurd (this ▸ (h.tied hx).1) hbf
    · exact h.tie x y hx q k

/-- A node that is the child of an open element comes after it on the stack. -/
theorem Tidy.insertAfter {s : St} (h : Tidy s) (i b m : Nat) (hi : s.stack[i]? = some b) (hbf : ¬ Fixed s b) (hm : m < s.heap.length) (hns : (s.n m).ns ≠ poNs)
    (hk : (s.n m).kind ≠ .fragment) (hf : ¬ Fixed s m) (he : Edge s (s.slot b) m) (hms : m ∉ s.stack) :
    Tidy { s with stack := s.stack.take (i + 1) ++ m :: s.stack.drop (i + 1) } := by
  obtain ⟨hi1, hi2⟩ := List.getElem?_eq_some_iff.1 hi
  have hbm : b ∈ s.stack := List.mem_of_getElem? hi
  have hpw := List.pairwise_iff_getElem.1 h.ord.2
  have hmem : ∀ j ∈ s.stack.take (i + 1) ++ m :: s.stack.drop (i + 1), j = m ∨ j ∈ s.stack := fun j hj => mem_insert.1 hj
  have hslot : Over s b (s.slot b) := by
    unfold St.slot
    split
    · cases hx : (s.n b).content with
      | none => exact .refl
      | some f => exact .tail .refl ⟨.inr hbm, .inr hx⟩
    · exact .refl
  have hbo : Over s b m := .tail hslot he
  have hne : b ≠ m := fun k => hms (k ▸ hbm)
  refine h.restack (fun j hj => ?_) ?_
  · rcases hmem j hj with rfl | k
    · exact ⟨hm, .inr (.inl hns), .inr hk⟩
    · exact ⟨h.stk j k, .inl k, h.ord.1 j k⟩
  · have hpt : (s.stack.take (i + 1) ++ s.stack.drop (i + 1)).Pairwise fun a b => (Fixed s a ∧ Fixed s b) ∨ (¬ Fixed s b ∧ ¬ Over s b a) := by
      rw [List.take_append_drop]; exact h.ord.2
    rw [List.pairwise_append] at hpt ⊢
    rw [List.pairwise_cons]
    refine ⟨hpt.1, ⟨fun v hv => .inr ?_, hpt.2.1⟩, fun a ha v hv => ?_⟩
    · obtain ⟨k, hk2, rfl⟩ := List.mem_iff_getElem.1 hv
      rw [List.length_drop] at hk2
      rw [List.getElem_drop]
      have := hpw i (i + 1 + k) hi1 (by omega) (by omega)
      rw [hi2] at this
      rcases this with o | o
      · exact absurd o.1 hbf
      · refine ⟨o.1, fun o2 => o.2 ?_⟩
        have hvm : s.stack[i + 1 + k] ∈ s.stack := List.getElem_mem _
        rcases o2.last with e | ⟨y, h1, h2⟩
        · exact absurd (e ▸ hvm) hms
        · have hys : y = s.slot b := by
            rcases h2.2 with k | k
            · rcases he.2 with k' | k'
              · exact h.kids.unique h2.1 he.1 trivial k k'
              · exact absurd (h.cont _ _ k').2.2.2.1 hk
            · exact absurd (h.cont _ _ k).2.2.2.1 hk
          rw [hys] at h1
          exact h.slot ((h.ord.1 _ hvm).resolve_left o.1) h1
    · rcases List.mem_cons.1 hv with rfl | hv
      · refine .inr ⟨hf, fun o => ?_⟩
        obtain ⟨k, hk2, rfl⟩ := List.mem_iff_getElem.1 ha
        rw [List.length_take] at hk2
        rw [List.getElem_take] at o
        have o2 := hbo.trans o
        rcases Nat.lt_or_ge k i with hki | hki
        · have := hpw k i (by omega) hi1 hki
          rw [hi2] at this
          rcases this with q | q
          · exact hbf q.2
          · exact q.2 o2
        · have : k = i := by omega
          subst this
          rw [hi2] at o
          exact hne (h.antisymm hbo o)
      · exact hpt.2.2 a ha v hv

/-- A new node in the place of an open element; what comes later is not fixed. -/
theorem Tidy.replace {s : St} (h : Tidy s) (i x m : Nat) (hi : s.stack[i]? = some x) (hf : Fresh s m) (hl : Loose (Live s) s m)
    (hlater : ∀ k b, i < k → s.stack[k]? = some b → ¬ Fixed s b) : Tidy { s with stack := s.stack.set i m } := by
  obtain ⟨hi1, hi2⟩ := List.getElem?_eq_some_iff.1 hi
  have hpw := List.pairwise_iff_getElem.1 h.ord.2
  refine h.restack (fun j hj => ?_) ?_
  · rcases List.mem_or_eq_of_mem_set hj with k | rfl
    · exact ⟨h.stk j k, .inl k, h.ord.1 j k⟩
    · exact ⟨hf.lt, .inr (.inl hf.ns), .inr hf.kind⟩
  · rw [List.pairwise_iff_getElem]
    intro a b ha hb hab
    rw [List.length_set] at ha hb
    rw [List.getElem_set, List.getElem_set]
    by_cases hbi : i = b
    · rw [if_pos hbi, if_neg (by omega)]
      refine .inr ⟨hf.notFixed, fun o => ?_⟩
      have h1 := hf.over _ o
      have h2 := hf.stk s.stack[a] (List.getElem_mem _)
      omega
    · rw [if_neg hbi]
      by_cases hai : i = a
      · rw [if_pos hai]
        refine .inr ⟨hlater b _ (by omega) (List.getElem?_eq_getElem hb), fun o => ?_⟩
        rcases o.last with e | ⟨y, _, h2⟩
        · have := hf.stk s.stack[b] (List.getElem_mem _)
          omega
        · rcases h2.2 with k | k
          · exact hl y h2.1 k
          · exact hf.kind (h.cont _ _ k).2.2.2.1
      · rw [if_neg hai]; exact hpw a b ha hb hab

end JH.Eng
