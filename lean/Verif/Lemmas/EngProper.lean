import Verif.Lemmas.EngFinal

/-! The last steps of a parse leave a tree (C94). -/
namespace JH.Eng

/-- Elements, texts, comments: whatever is not a root. -/
def El (k : Kind) : Prop := k ≠ .fragment ∧ k ≠ .document

/-- What is known of the nodes in the last steps. -/
structure Proper (s : St) : Prop where
  doc : s.doc < s.heap.length ∧ (s.n s.doc).ns ≠ poNs
  kids : Kids (Live s) (fun _ => True) s
  cont : ∀ p c, (s.n p).content = some c → c < s.heap.length ∧ (s.n c).ns ≠ poNs ∧ (s.n p).ns ≠ poNs ∧ (s.n c).kind = .fragment ∧ (s.n c).parent = some p
  sort : ∀ p, Live s p → ∀ c ∈ (s.n p).children, (s.n c).kind ≠ .fragment
  rank : Ranked s
  recd : ∀ i ∈ s.toUnwrap, i < s.heap.length ∧ Live s i ∧ El (s.n i).kind

theorem Tidy.proper {s : St} (h : Tidy s) (hr : ∀ i ∈ s.toUnwrap, i < s.heap.length ∧ Live s i ∧ El (s.n i).kind) : Proper s :=
  ⟨h.fixed s.doc (.inl rfl), h.kids, h.cont, h.sort, h.rank, hr⟩

theorem Proper.core {s t : St} (h : Proper s) (e : (t.heap, t.doc, t.stack, t.toUnwrap) = (s.heap, s.doc, s.stack, s.toUnwrap)) : Proper t := by
  simp only [Prod.mk.injEq] at e
  obtain ⟨h1, h2, h3, h4⟩ := e
  have hn : ∀ i, t.n i = s.n i := fun i => by unfold St.n; rw [h1]
  have hl : ∀ i, Live t i → Live s i := fun i k => by unfold Live at k; rw [hn, h3] at k; exact k
  refine ⟨by rw [h2, h1, hn]; exact h.doc, (h.kids.of_heap h1).mono hl, fun p c => ?_, fun p hp c => ?_, h.rank.mono fun x y k => ?_, fun i hi => ?_⟩
  · rw [hn, hn, h1]; exact h.cont p c
  · rw [hn, hn]; exact h.sort p (hl p hp) c
  · exact ⟨hl x k.1, by rw [← hn]; exact k.2⟩
  · unfold Live; rw [hn, h3, h1]; exact h.recd i (h4 ▸ hi)

/-- Fewer edges. -/
theorem Proper.sub {s t : St} (h : Proper s) (he : ∃ k, t = { s with heap := k }) (hh : t.heads = s.heads) (hc : ∀ j, (t.n j).content = (s.n j).content)
    (hk : Kids (Live s) (fun _ => True) t) (hfr : ∀ x c, (s.n x).content = some c → (t.n c).parent = (s.n c).parent)
    (hsub : ∀ p, Live s p → ∀ c ∈ (t.n p).children, c ∈ (s.n p).children) : Proper t := by
  obtain ⟨k, hkk⟩ := he
  have hst : t.stack = s.stack := by rw [hkk]
  have hdoc : t.doc = s.doc := by rw [hkk]
  have hun : t.toUnwrap = s.toUnwrap := by rw [hkk]
  have hlive : ∀ p, Live t p ↔ Live s p := live_frame hh hst
  have hl := len_of_heads hh
  have hn := ns_of_heads hh
  refine ⟨by rw [hdoc, hl, (hn _).1]; exact h.doc, hk.mono fun p => (hlive p).1, fun p c hpc => ?_, fun p hp c hpc => ?_, h.rank.mono ?_, fun i hi => ?_⟩
  · rw [hc] at hpc
    have := h.cont p c hpc
    rw [hl, (hn c).1, (hn p).1, (hn c).2.1, hfr p c hpc]
    exact this
  · rw [(hn c).2.1]; exact h.sort p ((hlive p).1 hp) c (hsub p ((hlive p).1 hp) c hpc)
  · rintro x y ⟨k1, k2⟩
    have k1 := (hlive x).1 k1
    exact ⟨k1, k2.imp (hsub x k1 y) fun k => by rw [← hc]; exact k⟩
  · rw [hl, hlive, (hn i).2.1]; exact h.recd i (hun ▸ hi)

/-- What is a child is not the content of a template. -/
theorem Proper.apart {s : St} (h : Proper s) {p c x : Nat} (hp : Live s p) (hc : c ∈ (s.n p).children) : (s.n x).content ≠ some c :=
  fun k => h.sort p hp c hc (h.cont x c k).2.2.2.1

theorem Proper.data {s : St} (h : Proper s) (i : Nat) (f : ENode → ENode) (h0 : ∀ n, (f n).head = n.head) (h1 : ∀ n, (f n).children = n.children)
    (h2 : ∀ n, (f n).parent = n.parent) (h4 : ∀ n, (f n).content = n.content) : Proper (s.upd i f) :=
  h.sub ⟨_, rfl⟩ (heads_upd _ _ _ h0) (fun j => content_upd _ _ _ _ h4)
    (h.kids.data i f h1 h2 fun n => by have := h0 n; simp only [ENode.head, Prod.mk.injEq] at this; exact this.2.2)
    (fun _ c _ => parent_upd _ _ _ _ h2) fun p _ c hc => by rw [kids_upd _ _ _ _ h1] at hc; exact hc

theorem Proper.remove {s : St} (h : Proper s) (p c : Nat) (hp : (s.n c).parent = some p) (hc : c ∈ (s.n p).children) :
    Proper ((s.upd p fun n => { n with children := n.children.erase c }).upd c fun n => { n with parent := none }) := by
  refine h.sub ⟨_, rfl⟩ (heads_two _ _ _ _ _ (fun _ => rfl) fun _ => rfl) (fun j => content_two _ _ _ _ _ _ (fun _ => rfl) fun _ => rfl)
    (h.kids.remove p c none fun _ => .inl hp).1 (fun x f hf => ?_) fun j _ x hx => ?_
  · rw [n_remove]
    simp only
    have hcf : c ≠ f := by
      rintro rfl
      obtain ⟨_, _, h3, h4, h5⟩ := h.cont x c hf
      rw [hp] at h5
      have : p = x := by simpa using h5
      subst this
      exact h.sort p (.inl h3) c hc h4
    rw [if_neg fun (k : c = f ∧ c < s.heap.length) => hcf k.1]
  · rw [n_remove] at hx
    simp only at hx
    split at hx
    · exact List.mem_of_mem_erase hx
    · exact hx

theorem Proper.clear {s : St} (h : Proper s) (m : Nat) (hm : Live s m) (C : Cfg) : Proper (clearMarker m C s).2 ∧
    ((clearMarker m C s).2.heads = s.heads ∧ (clearMarker m C s).2.stack = s.stack ∧ (clearMarker m C s).2.doc = s.doc) := by
  have e : (clearMarker m C s).2 = ((s.n m).children.foldl (fun s c => s.upd c fun n => { n with parent := none }) s).upd m fun n => { n with children := [] } := rfl
  have hh0 : ((s.n m).children.foldl (fun s c => s.upd c fun n => { n with parent := none }) s).heads = s.heads :=
    heads_foldl (f := fun s c => s.upd c fun n => { n with parent := none }) (fun s c => heads_upd s c _ fun _ => rfl) _ _
  have hh : (clearMarker m C s).2.heads = s.heads := by rw [e]; exact heads_upd' _ _ (fun _ => rfl) hh0
  have hfr : ∃ k, (clearMarker m C s).2 = { s with heap := k } := by
    obtain ⟨k, hk⟩ := foldl_heap (f := fun s c => s.upd c fun n => { n with parent := none }) (fun s c => ⟨_, rfl⟩) (s.n m).children s
    exact ⟨(({ s with heap := k } : St).upd m fun n => { n with children := [] }).heap, by rw [e, hk]; rfl⟩
  have hkids : ∀ j, ((clearMarker m C s).2.n j).children = if m = j then [] else (s.n j).children := by
    intro j
    rw [e, n_upd, len_of_heads hh0]
    by_cases hj : m = j
    · by_cases hl : m < s.heap.length
      · rw [if_pos ⟨hj, hl⟩, if_pos hj]
      · rw [if_neg fun k => hl k.2, if_pos hj, (parents_none _ _ _).1, ← hj, n_ge s (Nat.not_lt.1 hl)]; rfl
    · rw [if_neg fun k => hj k.1, if_neg hj]; exact (parents_none _ _ _).1
  have hpar : ∀ j, j ∉ (s.n m).children → ((clearMarker m C s).2.n j).parent = (s.n j).parent := by
    intro j hj
    rw [e]
    exact (parent_upd _ _ _ (fun n => { n with children := [] }) fun _ => rfl).trans ((parents_none _ _ _).2 hj)
  refine ⟨h.sub hfr hh (fun j => ?_) ?_ (fun x c hc => hpar c fun k => h.apart hm k hc) fun j _ c hc => ?_, hh, ?_⟩
  · rw [e]
    exact (content_upd _ _ _ (fun n => { n with children := [] }) fun _ => rfl).trans
      (content_foldl (f := fun s c => s.upd c fun n => { n with parent := none }) (fun s c j => content_upd s c j _ fun _ => rfl) _ _ j)
  · intro j hj c hc
    rw [hkids] at hc ⊢
    split at hc
    · exact absurd hc (by simp)
    · next hjb =>
      rw [if_neg hjb, len_of_heads hh, (ns_of_heads hh c).1]
      obtain ⟨a, b, d⟩ := h.kids j hj c hc
      refine ⟨a, b, fun hR => ?_⟩
      rw [hpar c fun k2 => hjb (h.kids.unique hm hj hR k2 hc)]
      exact d hR
  · rw [hkids] at hc
    split at hc
    · exact absurd hc (by simp)
    · exact hc
  · obtain ⟨k, hk⟩ := hfr; rw [hk]; exact ⟨rfl, rfl⟩

/-! ### New nodes -/

/-- Nodes are only added, and what they lead to is new too. -/
structure Ext (s t : St) : Prop where
  len : s.heap.length ≤ t.heap.length
  old : ∀ j, j < s.heap.length → t.n j = s.n j
  new : ∀ p c, s.heap.length ≤ p → Edge t p c → s.heap.length ≤ c
  frame : t.stack = s.stack ∧ t.doc = s.doc

theorem Ext.refl (s : St) : Ext s s := ⟨Nat.le_refl _, fun _ _ => rfl, fun p c hp e => by
  exfalso
  rcases e.2 with k | k <;> rw [n_ge s hp] at k <;> exact absurd k (by simp [default, instInhabitedENode, instInhabitedENode.default]), rfl, rfl⟩

theorem Ext.live {s t : St} (h : Ext s t) {j : Nat} (hj : j < s.heap.length) : Live t j ↔ Live s j := by
  unfold Live; rw [h.old j hj, h.frame.1]

theorem Ext.trans {s t u : St} (h : Ext s t) (k : Ext t u) : Ext s u := by
  refine ⟨Nat.le_trans h.len k.len, fun j hj => (k.old j (Nat.lt_of_lt_of_le hj h.len)).trans (h.old j hj), fun p c hp e => ?_,
    k.frame.1.trans h.frame.1, k.frame.2.trans h.frame.2⟩
  by_cases hpt : p < t.heap.length
  · refine h.new p c hp ⟨(k.live hpt).1 e.1, ?_⟩
    rw [← k.old p hpt]; exact e.2
  · exact Nat.le_trans h.len (k.new p c (Nat.not_lt.1 hpt) e)

theorem Ext.over {s t : St} (h : Ext s t) {a b : Nat} (ha : s.heap.length ≤ a) (o : Over t a b) : s.heap.length ≤ b := by
  induction o with
  | refl => exact ha
  | tail _ e ih => exact h.new _ _ ih e

theorem Ext.core {s t u : St} (h : Ext s t) (e : (u.heap, u.stack, u.doc) = (t.heap, t.stack, t.doc)) : Ext s u := by
  simp only [Prod.mk.injEq] at e
  obtain ⟨h1, h2, h3⟩ := e
  have hn : ∀ i, u.n i = t.n i := fun i => by unfold St.n; rw [h1]
  refine ⟨by rw [h1]; exact h.len, fun j hj => (hn j).trans (h.old j hj), fun p c hp e => h.new p c hp ?_, by rw [h2, h3]; exact h.frame⟩
  unfold Edge Live at e ⊢
  rw [hn, h2] at e; exact e

theorem edge_add {s : St} {n : ENode} (h1 : n.children = []) (h2 : n.content = none) {x y : Nat} (e : Edge (s.add n) x y) : x < s.heap.length ∧ Edge s x y := by
  by_cases hx : x < s.heap.length
  · unfold Edge Live at e ⊢
    rw [n_add_lt s n hx] at e
    exact ⟨hx, e⟩
  · exfalso
    by_cases he : x = s.heap.length
    · subst he
      rcases e.2 with k | k <;> rw [n_add] at k
      · rw [h1] at k; exact absurd k (by simp)
      · rw [h2] at k; exact absurd k (by simp)
    · have : (s.add n).heap.length ≤ x := by rw [len_add]; omega
      rcases e.2 with k | k <;> rw [n_ge _ this] at k <;> exact absurd k (by simp [default, instInhabitedENode, instInhabitedENode.default])

theorem Proper.add {s : St} (h : Proper s) (n : ENode) (h1 : n.children = []) (h2 : n.content = none) : Proper (s.add n) ∧ Ext s (s.add n) := by
  have hlen := len_add s n
  have hext : Ext s (s.add n) := ⟨by omega, fun j hj => n_add_lt s n hj, fun p c hp e => absurd (edge_add h1 h2 e).1 (by omega), rfl, rfl⟩
  refine ⟨⟨?_, ?_, fun p c hpc => ?_, fun p hp c hpc => ?_, h.rank.mono fun x y e => (edge_add h1 h2 e).2, fun i hi => ?_⟩, hext⟩
  · have := h.doc
    show s.doc < _ ∧ ((s.add n).n s.doc).ns ≠ poNs
    rw [n_add_lt s n this.1]
    exact ⟨by omega, this.2⟩
  · exact (h.kids.grow (t := s.add n) (l := [n]) (L' := Live (s.add n)) (R' := fun _ => True) rfl (by simpa using h1) (fun p hp k => (hext.live hp).1 k) fun _ _ => id).1
  · by_cases hp : p < s.heap.length
    · rw [n_add_lt s n hp] at hpc ⊢
      have := h.cont p c hpc
      rw [n_add_lt s n this.1]
      exact ⟨by omega, this.2⟩
    · exfalso
      by_cases he : p = s.heap.length
      · subst he; rw [n_add, h2] at hpc; exact absurd hpc (by simp)
      · rw [n_ge _ (by omega)] at hpc; exact absurd hpc (by simp [default, instInhabitedENode, instInhabitedENode.default])
  · obtain ⟨k1, k2⟩ := edge_add h1 h2 ⟨hp, .inl hpc⟩
    rw [n_add_lt s n k1] at hpc
    rw [n_add_lt s n (h.kids p k2.1 c hpc).1]
    exact h.sort p k2.1 c hpc
  · have hi : i ∈ s.toUnwrap := hi
    have := h.recd i hi
    exact ⟨by omega, (hext.live this.1).2 this.2.1, by rw [n_add_lt s n this.1]; exact this.2.2⟩

theorem Proper.link {s : St} (h : Proper s) (p pos c : Nat) (hc : c < s.heap.length) (hns : (s.n c).ns ≠ poNs) (hk : (s.n c).kind ≠ .fragment)
    (hp : (s.n c).parent = none) (hno : ¬ Over s c p) : Proper (s.link p pos c) := by
  have hh := heads_link s p pos c
  have hn := ns_of_heads hh
  have hl : Loose (Live s) s c := h.kids.noParent trivial hp
  have he : ∀ x y, Edge (s.link p pos c) x y → Edge s x y ∨ (x = p ∧ y = c) := fun x y => edge_link p pos c
  have hlive : ∀ x, Live (s.link p pos c) x ↔ Live s x := live_frame hh rfl
  refine ⟨?_, (h.kids.link p pos c hc hns fun _ => hl).mono fun x => (hlive x).1, fun q f hqf => ?_, fun q hq f hqf => ?_, h.rank.add he hno, fun i hi => ?_⟩
  · rw [len_link]; show s.doc < _ ∧ ((s.link p pos c).n s.doc).ns ≠ poNs; rw [(hn _).1]; exact h.doc
  · rw [content_link] at hqf
    have := h.cont q f hqf
    have hcf : c ≠ f := fun e => by rw [← e, hp] at this; exact absurd this.2.2.2.2 (by simp)
    rw [len_link, (hn f).1, (hn q).1, (hn f).2.1, n_link]
    simp only
    rw [if_neg fun (k : c = f ∧ c < s.heap.length) => hcf k.1]
    exact this
  · rw [(hn f).2.1]
    rw [n_link] at hqf
    simp only at hqf
    split at hqf
    · rcases mem_insert.1 hqf with k | k
      · rw [k]; exact hk
      · exact h.sort q ((hlive q).1 hq) f k
    · exact h.sort q ((hlive q).1 hq) f hqf
  · rw [len_link, hlive, (hn i).2.1]; exact h.recd i hi

theorem n_setContent (s : St) (c d j : Nat) : ((s.upd d fun n => { n with parent := some c }).upd c fun n => { n with content := some d }).n j =
    { s.n j with
      content := if c = j ∧ c < s.heap.length then some d else (s.n j).content
      parent := if d = j ∧ d < s.heap.length then some c else (s.n j).parent } := by
  rw [n_upd, len_upd, n_upd, n_upd]
  by_cases h1 : c = j ∧ c < s.heap.length <;> by_cases h2 : d = j ∧ d < s.heap.length
  · obtain ⟨rfl, _⟩ := h1; obtain ⟨rfl, _⟩ := h2; simp_all
  · obtain ⟨rfl, _⟩ := h1
    have : ¬ (d = c ∧ d < s.heap.length) := h2
    simp_all
  · obtain ⟨rfl, _⟩ := h2; simp_all
  · rw [if_neg h1, if_neg h2, if_neg h2, if_neg h1]

theorem Proper.setContent {s : St} (h : Proper s) (c d : Nat) (hc : (s.n c).ns ≠ poNs) (hd : d < s.heap.length) (hns : (s.n d).ns ≠ poNs) (hk : (s.n d).kind = .fragment)
    (hp : (s.n d).parent = none) (hno : ¬ Over s d c) :
    Proper ((s.upd d fun n => { n with parent := some c }).upd c fun n => { n with content := some d }) := by
  have hh : ((s.upd d fun n => { n with parent := some c }).upd c fun n => { n with content := some d }).heads = s.heads := heads_two _ _ _ _ _ (fun _ => rfl) fun _ => rfl
  have hN := n_setContent s c d
  have hst : ((s.upd d fun n => { n with parent := some c }).upd c fun n => { n with content := some d }).stack = s.stack := rfl
  have hdoc : ((s.upd d fun n => { n with parent := some c }).upd c fun n => { n with content := some d }).doc = s.doc := rfl
  have hun : ((s.upd d fun n => { n with parent := some c }).upd c fun n => { n with content := some d }).toUnwrap = s.toUnwrap := rfl
  generalize ((s.upd d fun n => { n with parent := some c }).upd c fun n => { n with content := some d }) = t at *
  have hl := len_of_heads hh
  have hn := ns_of_heads hh
  have hlive : ∀ x, Live t x ↔ Live s x := live_frame hh hst
  have hloose : Loose (Live s) s d := h.kids.noParent trivial hp
  have hkid : ∀ j, (t.n j).children = (s.n j).children := fun j => by rw [hN]
  have hpar : ∀ j, d ≠ j → (t.n j).parent = (s.n j).parent := fun j hj => by rw [hN]; simp only; rw [if_neg fun (k : d = j ∧ d < s.heap.length) => hj k.1]
  have he : ∀ x y, Edge t x y → Edge s x y ∨ (x = c ∧ y = d) := by
    rintro x y ⟨k1, k2⟩
    rcases k2 with k2 | k2
    · exact .inl ⟨(hlive x).1 k1, .inl (hkid x ▸ k2)⟩
    · rw [hN] at k2
      simp only at k2
      split at k2
      · next k => exact .inr ⟨k.1.symm, by simpa using k2.symm⟩
      · exact .inl ⟨(hlive x).1 k1, .inr k2⟩
  refine ⟨by rw [hdoc, hl, (hn _).1]; exact h.doc, fun j hj x hx => ?_, fun q f hqf => ?_, fun q hq f hqf => ?_, h.rank.add he hno, fun i hi => ?_⟩
  · rw [hkid] at hx ⊢
    have hj := (hlive j).1 hj
    rw [hl, (hn x).1, hpar x fun e => hloose j hj (e ▸ hx)]
    exact h.kids j hj x hx
  · rw [hl, (hn f).1, (hn q).1, (hn f).2.1]
    rw [hN] at hqf
    simp only at hqf
    split at hqf
    · next k =>
      have e : d = f := by simpa using hqf
      subst e
      refine ⟨hd, hns, k.1 ▸ hc, hk, ?_⟩
      rw [hN]; simp [hd, k.1]
    · have := h.cont q f hqf
      have hcf : d ≠ f := fun e => by rw [← e, hp] at this; exact absurd this.2.2.2.2 (by simp)
      rw [hpar f hcf]; exact this
  · rw [hkid] at hqf
    rw [(hn f).2.1]; exact h.sort q ((hlive q).1 hq) f hqf
  · rw [hl, hlive, (hn i).2.1]; exact h.recd i (hun ▸ hi)

/-! ### Copies -/

/-- A node that may be copied. -/
structure Copyable (s : St) (i : Nat) : Prop where
  lt : i < s.heap.length
  ns : (s.n i).ns ≠ poNs

/-- `r` is the root of a copy of `i` that was made since `s`. -/
structure Copied (s : St) (i r : Nat) (t : St) : Prop where
  proper : Proper t
  ext : Ext s t
  ge : s.heap.length ≤ r
  lt : r < t.heap.length
  parent : (t.n r).parent = none
  head : (t.n r).head = (s.n i).head

theorem head_ns {a b : ENode} (h : a.head = b.head) : a.kind = b.kind ∧ a.ns = b.ns := by
  simp only [ENode.head, Prod.mk.injEq] at h
  exact ⟨h.1, h.2.2⟩

theorem Ext.linkNew {s t : St} (h : Ext s t) (p pos c : Nat) (hp : s.heap.length ≤ p) (hc : s.heap.length ≤ c) : Ext s (t.link p pos c) := by
  refine ⟨by rw [len_link]; exact h.len, fun j hj => ?_, fun x y hx e => ?_, h.frame⟩
  · rw [n_link, if_neg fun k => by omega, if_neg fun k => by omega]; exact h.old j hj
  · rcases edge_link p pos c e with k | k
    · exact h.new x y hx k
    · rw [k.2]; exact hc

theorem each_ind {f : Nat → EM Unit} (C : Cfg) (P : St → Prop) : ∀ (l : List Nat) (s : St), (∀ s, ∀ i ∈ l, P s → P (f i C s).2) → P s → P (Eng.each f l C s).2 := by
  intro l
  induction l with
  | nil => exact fun s _ h => h
  | cons x l ih => exact fun s hf h => ih _ (fun s i hi => hf s i (by simp [hi])) (hf s x (by simp) h)

theorem Copied.child {s : St} {i r : Nat} {t : St} (h : Copied s i r t) {k d : Nat} {u : St} (hk : Copied t k d u) (hkind : (t.n k).kind ≠ .fragment) (hns : (t.n k).ns ≠ poNs) :
    Copied s i r (u.linkLast r d) := by
  obtain ⟨e1, e2⟩ := head_ns hk.head
  have hext := h.ext.trans hk.ext
  have hrt := h.lt
  have hdt := hk.ge
  rw [linkLast_eq]
  refine ⟨hk.proper.link _ _ _ hk.lt (e2 ▸ hns) (e1 ▸ hkind) hk.parent fun o => ?_, hext.linkNew _ _ _ h.ge (Nat.le_trans h.ext.len hk.ge), h.ge, ?_, ?_, ?_⟩
  · have := hk.ext.over hk.ge o; omega
  · rw [len_link]; exact Nat.lt_of_lt_of_le h.lt hk.ext.len
  · rw [n_link, if_neg (c := d = r ∧ _) fun k => by omega]
    simp only
    rw [hk.ext.old r h.lt]; exact h.parent
  · rw [n_link]
    simp only [ENode.head]
    rw [hk.ext.old r h.lt]
    exact h.head

theorem Copied.content {s : St} {i r : Nat} {t : St} (h : Copied s i r t) {k d : Nat} {u : St} (hk : Copied t k d u) (hkind : (t.n k).kind = .fragment) (hns : (t.n k).ns ≠ poNs)
    (hr : (s.n i).ns ≠ poNs) :
    Copied s i r ((u.upd d fun n => { n with parent := some r }).upd r fun n => { n with content := some d }) := by
  obtain ⟨e1, e2⟩ := head_ns hk.head
  obtain ⟨e3, e4⟩ := head_ns h.head
  have hext := h.ext.trans hk.ext
  have hrt := h.lt
  have hdt := hk.ge
  have hrg := h.ge
  have hsl := h.ext.len
  have hur : u.n r = t.n r := hk.ext.old r h.lt
  have hP := hk.proper.setContent r d (by rw [hur, e4]; exact hr) hk.lt (e2 ▸ hns) (e1 ▸ hkind) hk.parent fun o => by
    have := hk.ext.over hk.ge o; omega
  have hN := n_setContent u r d
  have hh : ((u.upd d fun n => { n with parent := some r }).upd r fun n => { n with content := some d }).heads = u.heads := heads_two _ _ _ _ _ (fun _ => rfl) fun _ => rfl
  have hst : ((u.upd d fun n => { n with parent := some r }).upd r fun n => { n with content := some d }).stack = u.stack := rfl
  have hdoc : ((u.upd d fun n => { n with parent := some r }).upd r fun n => { n with content := some d }).doc = u.doc := rfl
  generalize ((u.upd d fun n => { n with parent := some r }).upd r fun n => { n with content := some d }) = v at *
  have hl := len_of_heads hh
  refine ⟨hP, ⟨by rw [hl]; exact hext.len, fun j hj => ?_, fun x y hx e => ?_, by rw [hst, hdoc]; exact hext.frame⟩, h.ge, by rw [hl]; exact Nat.lt_of_lt_of_le h.lt hk.ext.len, ?_, ?_⟩
  · rw [hN, if_neg fun k => by omega, if_neg fun k => by omega]; exact hext.old j hj
  · obtain ⟨k1, k2⟩ := e
    have k1 := (live_frame hh hst x).1 k1
    rw [hN] at k2
    simp only at k2
    rcases k2 with k2 | k2
    · exact hext.new x y hx ⟨k1, .inl k2⟩
    · split at k2
      · have : d = y := by simpa using k2
        omega
      · exact hext.new x y hx ⟨k1, .inr k2⟩
  · rw [hN]
    simp only
    rw [if_neg fun k => by omega, hur]; exact h.parent
  · rw [hN]
    simp only [ENode.head]
    rw [hur]; exact h.head

theorem Copied.note {s : St} {i r : Nat} {t u : St} (h : Copied s i r t) (hr : (s.n i).ns ≠ poNs) (e : (u.heap, u.stack, u.doc) = (t.heap, t.stack, t.doc))
    (hu : ∀ x ∈ u.toUnwrap, x ∈ t.toUnwrap ∨ (x = r ∧ El (s.n i).kind)) : Copied s i r u := by
  have he := h.ext.core e
  simp only [Prod.mk.injEq] at e
  obtain ⟨h1, h2, h3⟩ := e
  have hn : ∀ i, u.n i = t.n i := fun i => by unfold St.n; rw [h1]
  refine ⟨⟨?_, ?_, ?_, ?_, ?_, ?_⟩, he, h.ge, by rw [h1]; exact h.lt, by rw [hn]; exact h.parent, by rw [hn]; exact h.head⟩
  all_goals have P : Proper { u with toUnwrap := t.toUnwrap } := h.proper.core (by simp [h1, h2, h3])
  · exact P.doc
  · exact P.kids
  · exact P.cont
  · exact P.sort
  · exact P.rank
  · intro x hx
    rcases hu x hx with hx | ⟨rfl, hel⟩
    · exact P.recd x hx
    · exact ⟨by rw [h1]; exact h.lt, .inl (by rw [hn, (head_ns h.head).2]; exact hr), by rw [hn, (head_ns h.head).1]; exact hel⟩

theorem Ext.later' {s t : St} (h : Ext s t) : s.heap.length ≤ t.heap.length ∧ ∀ j, j < s.heap.length → (t.n j).head = (s.n j).head := ⟨h.len, fun j hj => by rw [h.old j hj]⟩

/-- No root is to be unwrapped. -/
def UnOk (un : List Nat) (s : St) : Prop := ∀ x ∈ un, x < s.heap.length ∧ El (s.n x).kind

/-- No node has become something else. -/
def Later (s t : St) : Prop := s.heap.length ≤ t.heap.length ∧ ∀ j, j < s.heap.length → (t.n j).head = (s.n j).head

theorem UnOk.later {un : List Nat} {s t : St} (h : UnOk un s) (k : Later s t) : UnOk un t := fun x hx =>
  ⟨Nat.lt_of_lt_of_le (h x hx).1 k.1, by rw [(head_ns (k.2 x (h x hx).1)).1]; exact (h x hx).2⟩

theorem cloneF_copied (C : Cfg) (dr un : List Nat) : ∀ (f i : Nat) (s : St), Proper s → UnOk un s → Copyable s i → Copied s i (cloneF dr un f i C s).1 (cloneF dr un f i C s).2 := by
  have base : ∀ (i : Nat) (s : St), Proper s → Copyable s i → Copied s i s.heap.length (s.add { s.n i with children := [], parent := none, content := none }) := by
    intro i s h _
    obtain ⟨h1, h2⟩ := h.add { s.n i with children := [], parent := none, content := none } rfl rfl
    exact ⟨h1, h2, Nat.le_refl _, by rw [len_add]; omega, by rw [n_add], by rw [n_add]; rfl⟩
  intro f
  induction f with
  | zero => exact fun i s h _ hi => base i s h hi
  | succ f ih =>
    intro i s h hu hi
    have h0 := base i s h hi
    have e : cloneF dr un (f + 1) i C s = (s.heap.length, (each (fun k => do
          let d ← cloneF dr un f k
          modS fun u => (u.upd d fun n => { n with parent := some s.heap.length }).upd s.heap.length fun n => { n with content := some d }) (s.n i).content.toList C
        (each (fun k => do
          let d ← cloneF dr un f k
          modS fun u => u.linkLast s.heap.length d) (s.n i).children C
        (iteQ (fun _ _ => dr.contains i) (noteDrop s.heap.length) (whQ (fun _ _ => un.contains i) (noteUnwrap s.heap.length)) C
          (s.add { s.n i with children := [], parent := none, content := none })).2).2).2) := rfl
    rw [e]
    have h1 : Copied s i s.heap.length (iteQ (fun _ _ => dr.contains i) (noteDrop s.heap.length) (whQ (fun _ _ => un.contains i) (noteUnwrap s.heap.length)) C
          (s.add { s.n i with children := [], parent := none, content := none })).2 := by
      unfold iteQ whQ
      split
      · exact h0.note hi.ns rfl fun x hx => .inl hx
      · split
        · next hun =>
          refine h0.note hi.ns rfl fun x hx => ?_
          rcases List.mem_append.1 hx with hx | hx
          · exact .inl hx
          · exact .inr ⟨by simpa using hx, (hu i (by simpa using hun)).2⟩
        · exact h0
    refine each_ind C (fun t => Copied s i s.heap.length t) _ _ (fun t k hk ht => ?_) (each_ind C (fun t => Copied s i s.heap.length t) _ _ (fun t k hk ht => ?_) h1)
    · have hc := h.cont i k (by simpa using hk)
      have htk := ht.ext.old k hc.1
      exact ht.content (ih k t ht.proper (hu.later ht.ext.later') ⟨Nat.lt_of_lt_of_le hc.1 ht.ext.len, by rw [htk]; exact hc.2.1⟩) (by rw [htk]; exact hc.2.2.2.1) (by rw [htk]; exact hc.2.1) hi.ns
    · have hc := h.kids i (.inl hi.ns) k hk
      have htk := ht.ext.old k hc.1
      exact ht.child (ih k t ht.proper (hu.later ht.ext.later') ⟨Nat.lt_of_lt_of_le hc.1 ht.ext.len, by rw [htk]; exact hc.2.1⟩) (by rw [htk]; exact h.sort i (.inl hi.ns) k hk) (by rw [htk]; exact hc.2.1)

/-! ### Projecting the selected option -/

theorem Later.refl (s : St) : Later s s := ⟨Nat.le_refl _, fun _ _ => rfl⟩
theorem Later.trans {s t u : St} (h : Later s t) (k : Later t u) : Later s u :=
  ⟨Nat.le_trans h.1 k.1, fun j hj => (k.2 j (Nat.lt_of_lt_of_le hj h.1)).trans (h.2 j hj)⟩
theorem Later.heads {s t : St} (h : t.heads = s.heads) : Later s t :=
  ⟨Nat.le_of_eq (len_of_heads h).symm, fun j _ => by
    have := ns_of_heads h j
    simp only [ENode.head, this.1, this.2.1, this.2.2]⟩
theorem Ext.later {s t : St} (h : Ext s t) : Later s t := ⟨h.len, fun j hj => by rw [h.old j hj]⟩

theorem Copyable.later {s t : St} {i : Nat} (h : Copyable s i) (k : Later s t) : Copyable t i :=
  ⟨Nat.lt_of_lt_of_le h.lt k.1, by rw [(head_ns (k.2 i h.lt)).2]; exact h.ns⟩

theorem Proper.copyable {s : St} (h : Proper s) {p c : Nat} (hp : Copyable s p) (hc : c ∈ (s.n p).children) : Copyable s c :=
  ⟨(h.kids p (.inl hp.ns) c hc).1, (h.kids p (.inl hp.ns) c hc).2.1⟩

theorem Proper.append {s : St} (h : Proper s) (p c : Nat) (hc : c < s.heap.length) (hns : (s.n c).ns ≠ poNs) (hk : (s.n c).kind ≠ .fragment)
    (hp : (s.n c).parent = none) (hno : ¬ Over s c p) : Proper (s.append p c) := by
  have hl : Proper (s.linkLast p c) := by rw [linkLast_eq]; exact h.link _ _ _ hc hns hk hp hno
  unfold St.append
  split
  · split
    · exact h.data _ _ (fun _ => rfl) (fun _ => rfl) (fun _ => rfl) fun _ => rfl
    · exact hl
  · exact hl

theorem fillMarker_ok (C : Cfg) (dr un : List Nat) (m o : Nat) (s : St) (h : Proper s) (hu : UnOk un s) (hm : m < s.heap.length) (ho : Copyable s o) :
    Proper (fillMarker dr un m o C s).2 ∧ Later s (fillMarker dr un m o C s).2 := by
  show Proper (each _ (s.n o).children C s).2 ∧ Later s (each _ (s.n o).children C s).2
  refine each_ind C (fun t => Proper t ∧ Later s t) _ _ (fun t k hk ht => ?_) ⟨h, .refl s⟩
  obtain ⟨ht, hst⟩ := ht
  have hck := h.copyable ho hk
  have hkind := h.sort o (.inl ho.ns) k hk
  obtain ⟨e1, e2⟩ := head_ns (hst.2 k hck.lt)
  have hc := cloneF_copied C dr un t.heap.length k t ht (hu.later hst) (hck.later hst)
  obtain ⟨e3, e4⟩ := head_ns hc.head
  show Proper ((cloneF dr un t.heap.length k C t).2.append m (cloneF dr un t.heap.length k C t).1) ∧ Later s ((cloneF dr un t.heap.length k C t).2.append m (cloneF dr un t.heap.length k C t).1)
  refine ⟨hc.proper.append _ _ hc.lt (by rw [e4, e2]; exact hck.ns) (by rw [e3, e1]; exact hkind) hc.parent fun o => ?_,
    (hst.trans hc.ext.later).trans (Later.heads (heads_append _ _ _))⟩
  have h1 := hc.ext.over hc.ge o
  have h2 := hst.1
  omega

theorem fillMarkers_ok (C : Cfg) (dr un : List Nat) (option : Option Nat) (span : Option (Nat × Nat)) (size : Nat) :
    ∀ (l : List (Nat × Nat)) (r : Nat) (s : St), Proper s → UnOk un s → (∀ m ∈ l, Copyable s m.1) → (∀ o, option = some o → Copyable s o) →
    Proper (fillMarkers dr un option span size l r C s).2 ∧ Later s (fillMarkers dr un option span size l r C s).2 := by
  intro l
  induction l with
  | nil => exact fun r s h _ _ _ => ⟨h, .refl s⟩
  | cons x l ih =>
    obtain ⟨m, p⟩ := x
    intro r s h hu hl ho
    have go : ∀ (r : Nat) (t : St), Proper t → Later s t →
        Proper (fillMarkers dr un option span size l r C t).2 ∧ Later s (fillMarkers dr un option span size l r C t).2 := fun r t h1 h2 => by
      have := ih r t h1 (hu.later h2) (fun m hm => (hl m (by simp [hm])).later h2) fun o k => (ho o k).later h2
      exact ⟨this.1, h2.trans this.2⟩
    have hm := hl (m, p) (by simp)
    obtain ⟨k1, k2, -⟩ := h.clear m (.inl hm.ns) C
    have k2 := Later.heads k2
    rw [fillMarkers.eq_def]
    simp only
    have hite : ∀ (b : Bool) (A B : EM Nat), (Proper (A C s).2 ∧ Later s (A C s).2) → (Proper (B C s).2 ∧ Later s (B C s).2) →
        Proper ((if b = true then A else B) C s).2 ∧ Later s ((if b = true then A else B) C s).2 := fun b A B hA hB => by cases b <;> assumption
    refine hite _ _ _ ?_ ?_
    · exact go r s h (.refl s)
    · cases hop : option with
      | none => subst hop; exact go r _ k1 k2
      | some o =>
        subst hop
        by_cases hr : size ≤ r
        · have := fillMarker_ok C dr un m o _ k1 (hu.later k2) (hm.later k2).lt ((ho o rfl).later k2)
          dsimp only
          rw [if_pos hr]
          exact go _ _ this.1 (k2.trans this.2)
        · dsimp only
          rw [if_neg hr]
          exact go _ _ k1 k2

/-- What a scan found may be copied. -/
structure ScanOk (s : St) (a : SelScan) : Prop where
  markers : ∀ m ∈ a.markers, Copyable s m.1
  selected : ∀ o, a.selected = some o → Copyable s o
  first : ∀ o, a.first = some o → Copyable s o

theorem scanNode_ok {s : St} {i : Nat} (hi : Copyable s i) (mu di da : Bool) {a : SelScan} (h : ScanOk s a) : ScanOk s (scanNode s mu di da i a) := by
  have h1 : ScanOk s (if (s.n i).name = c%"selectedcontent" then { a with markers := a.markers ++ [(i, a.pos)] } else a) := by
    split
    · refine ⟨fun m hm => ?_, h.selected, h.first⟩
      rcases List.mem_append.1 hm with hm | hm
      · exact h.markers m hm
      · have : m = (i, a.pos) := by simpa using hm
        rw [this]; exact hi
    · exact h
  unfold scanNode
  simp only
  split
  · exact h
  · generalize (if (s.n i).name = c%"selectedcontent" then { a with markers := a.markers ++ [(i, a.pos)] } else a) = b at h1 ⊢
    split
    · refine ⟨h1.markers, fun o ho => ?_, fun o ho => ?_⟩
      · simp only at ho
        split at ho
        · have : i = o := by simpa using ho
          exact this ▸ hi
        · exact h1.selected o ho
      · simp only at ho
        split at ho
        · have : i = o := by simpa using ho
          exact this ▸ hi
        · exact h1.first o ho
    · exact h1

theorem scanSelF_ok {s : St} (h : Proper s) (select : Nat) (mu : Bool) : ∀ (f : Nat) (di da : Bool) (i : Nat) (a : SelScan), Copyable s i → ScanOk s a →
    ScanOk s (scanSelF s select mu f di da i a) := by
  intro f
  induction f with
  | zero => exact fun _ _ _ _ _ h => h
  | succ f ih =>
    intro di da i a hi ha
    have h0 : ScanOk s { a with pos := a.pos + 1 } := ⟨ha.markers, ha.selected, ha.first⟩
    have h1 : ScanOk s (if i = select then { a with pos := a.pos + 1 } else scanNode s mu di da i { a with pos := a.pos + 1 }) := by
      split
      · exact h0
      · exact scanNode_ok hi mu di da h0
    have h2 : ∀ (l : List Nat) (d1 d2 : Bool) (b : SelScan), (∀ c ∈ l, Copyable s c) → ScanOk s b → ScanOk s (l.foldl (fun a c => scanSelF s select mu f d1 d2 c a) b) := by
      intro l
      induction l with
      | nil => exact fun _ _ _ _ h => h
      | cons x l ihl => exact fun d1 d2 b hl hb => ihl d1 d2 _ (fun c hc => hl c (by simp [hc])) (ih d1 d2 x b (hl x (by simp)) hb)
    have h3 := h2 (s.n i).children (di || ((s.n i).name = c%"optgroup" && hasAttr (s.n i) c%"disabled")) (da || (s.n i).name = c%"datalist") _ (fun c hc => h.copyable hi hc) h1
    unfold scanSelF
    simp only
    split
    · exact ⟨h3.markers, h3.selected, h3.first⟩
    · exact h3

theorem projectSelect_ok (C : Cfg) (dr un : List Nat) (i r : Nat) (s : St) (h : Proper s) (hu : UnOk un s) (hi : Copyable s i) :
    Proper (projectSelect dr un i r C s).2 ∧ Later s (projectSelect dr un i r C s).2 := by
  have hs := scanSelF_ok h i (hasAttr (s.n i) c%"multiple") (s.heap.length + 1) false false i {} hi ⟨by simp, by simp, by simp⟩
  refine fillMarkers_ok C dr un _ _ _ _ r s h hu hs.markers fun o ho => ?_
  cases hsel : (scanSelF s i (hasAttr (s.n i) c%"multiple") (s.heap.length + 1) false false i {}).selected with
  | none => rw [hsel] at ho; exact hs.first o (by simpa using ho)
  | some x =>
    rw [hsel] at ho
    have : x = o := by simpa using ho
    exact hs.selected o (this ▸ hsel)

theorem projectLoop_ok (C : Cfg) (dr un : List Nat) : ∀ (f : Nat) (l : List Nat) (r : Nat) (s : St), Proper s → UnOk un s → (∀ i ∈ l, Copyable s i) →
    Proper (projectLoop dr un f l r C s).2 ∧ Later s (projectLoop dr un f l r C s).2 := by
  intro f
  induction f with
  | zero => exact fun l r s h _ _ => ⟨h, .refl s⟩
  | succ f ih =>
    intro l r s h hu hl
    cases l with
    | nil => exact ⟨h, .refl s⟩
    | cons i l =>
      have e : projectLoop dr un (f + 1) (i :: l) r C s = (if (s.n i).kind ≠ .element then projectLoop dr un f l r
        else do
          let r ← iteQ (fun _ _ => (s.n i).name = c%"select") (projectSelect dr un i r) (pure r)
          let kids ← q fun _ s => (s.n i).children
          projectLoop dr un f (kids ++ l) r : EM Unit) C s := rfl
      rw [e]
      by_cases hk : (s.n i).kind ≠ .element
      · rw [if_pos hk]
        exact ih l r s h hu fun x hx => hl x (by simp [hx])
      · rw [if_neg hk]
        have hi := hl i (by simp)
        have key : ∀ (r : Nat) (t : St), Proper t → Later s t → Proper (projectLoop dr un f ((t.n i).children ++ l) r C t).2 ∧ Later s (projectLoop dr un f ((t.n i).children ++ l) r C t).2 := by
          intro r t h1 h2
          have := ih ((t.n i).children ++ l) r t h1 (hu.later h2) fun x hx => by
            rcases List.mem_append.1 hx with hx | hx
            · exact h1.copyable (hi.later h2) hx
            · exact (hl x (by simp [hx])).later h2
          exact ⟨this.1, h2.trans this.2⟩
        rw [bind_eq]
        have h1 : Proper (iteQ (fun _ _ => (s.n i).name = c%"select") (projectSelect dr un i r) (pure r) C s).2 ∧
            Later s (iteQ (fun _ _ => (s.n i).name = c%"select") (projectSelect dr un i r) (pure r) C s).2 := by
          unfold iteQ
          split
          · exact projectSelect_ok C dr un i r s h hu hi
          · exact ⟨h, .refl s⟩
        exact key _ _ h1.1 h1.2

theorem project_ok (C : Cfg) (s : St) (h : Proper s) : Proper (project C s).2 ∧ Later s (project C s).2 :=
  projectLoop_ok C _ _ _ _ _ s h (fun x hx => ⟨(h.recd x hx).1, (h.recd x hx).2.2⟩) fun i hi => h.copyable ⟨h.doc.1, h.doc.2⟩ (List.mem_reverse.1 hi)

/-! ### The end -/

theorem Proper.drop {s : St} (h : Proper s) (C : Cfg) (i : Nat) : Proper (dropOne i C s).2 := by
  rw [dropOne_eq]
  cases hp : (s.n i).parent with
  | none => exact h
  | some p =>
    simp only
    by_cases hc : (s.n p).children.contains i = true
    · rw [if_pos hc]; exact h.remove p i hp (by simpa using hc)
    · rw [if_neg hc]; exact h.core rfl

theorem unwrap_proper {s t : St} (h : Proper s) {p i : Nat} (hL : Live s i) (hi : i < s.heap.length) (hpar : (s.n i).parent = some p) (hmem : i ∈ (s.n p).children)
    (hf : ∃ k, t = { s with heap := k }) (hh : t.heads = s.heads) (hc : ∀ j, (t.n j).content = (s.n j).content)
    (hn : ∀ j, (t.n j).children = ((s.unwrapAt p i).n j).children ∧ (t.n j).parent = ((s.unwrapAt p i).n j).parent) : Proper t := by
  have hp := mem_lt hmem
  have hu := n_unwrapAt s hi hp
  have hst : t.stack = s.stack := by obtain ⟨k, hk⟩ := hf; rw [hk]
  have hdoc : t.doc = s.doc := by obtain ⟨k, hk⟩ := hf; rw [hk]
  have hun : t.toUnwrap = s.toUnwrap := by obtain ⟨k, hk⟩ := hf; rw [hk]
  have hl := len_of_heads hh
  have hns := ns_of_heads hh
  have hlive : ∀ x, Live t x ↔ Live s x := live_frame hh hst
  have hkids : ∀ j, (t.n j).children =
      (if j = i then [] else if j = p then (s.n p).children.flatMap (fun x => if x = i then (s.n i).children else [x]) else (s.n j).children) := fun j => (hn j).1.trans (hu j).1
  have hpars : ∀ j, (t.n j).parent = if j = i then none else if j ∈ (s.n i).children ∧ j < s.heap.length then some p else (s.n j).parent := fun j => (hn j).2.trans (hu j).2
  have hsrc : ∀ x y, Live s x → y ∈ (t.n x).children → y ∈ (s.n x).children ∨ (x = p ∧ y ∈ (s.n i).children) := by
    intro x y _ hy
    rw [hkids] at hy
    split at hy
    · exact absurd hy (by simp)
    · split at hy
      · next e =>
        rcases mem_splice.1 hy with k | k
        · exact .inl (e ▸ k.1)
        · exact .inr ⟨e, k.2⟩
      · exact .inl hy
  refine ⟨by rw [hdoc, hl, (hns _).1]; exact h.doc, ?_, fun q f hqf => ?_, fun q hq f hqf => ?_, ?_, fun x hx => ?_⟩
  · have hk := (h.kids.unwrap hL trivial hi hpar hmem).1
    refine (hk.same ?_ fun j => ⟨(hn j).1, (hn j).2, ?_⟩).mono fun x => (hlive x).1
    · rw [hl, len_of_heads (heads_unwrapAt s p i)]
    · rw [(hns j).1, (ns_of_heads (heads_unwrapAt s p i) j).1]
  · rw [hc] at hqf
    have := h.cont q f hqf
    rw [hl, (hns f).1, (hns q).1, (hns f).2.1, hpars f]
    have hfi : f ≠ i := by
      rintro rfl
      have h5 := this.2.2.2.2
      rw [hpar] at h5
      have : p = q := by simpa using h5
      subst this
      exact h.apart (.inl (h.cont p f hqf).2.2.1) hmem hqf
    rw [if_neg hfi, if_neg fun k => h.apart hL k.1 hqf]
    exact this
  · rw [(hns f).2.1]
    have hq := (hlive q).1 hq
    rcases hsrc q f hq hqf with k | k
    · exact h.sort q hq f k
    · exact h.sort i hL f k.2
  · obtain ⟨rk, hr⟩ := h.rank
    refine ⟨rk, fun x y e => ?_⟩
    obtain ⟨k1, k2⟩ := e
    have k1 := (hlive x).1 k1
    rcases k2 with k2 | k2
    · rcases hsrc x y k1 k2 with k | k
      · exact hr x y ⟨k1, .inl k⟩
      · exact Nat.lt_trans (hr x i ⟨k1, .inl (k.1 ▸ hmem)⟩) (hr i y ⟨hL, .inl k.2⟩)
    · exact hr x y ⟨k1, .inr (by rw [← hc]; exact k2)⟩
  · rw [hl, hlive, (hns x).2.1]; exact h.recd x (hun ▸ hx)

theorem Proper.unwrap {s : St} (h : Proper s) (C : Cfg) (i : Nat) (hL : Live s i) (hi : i < s.heap.length) : Proper (unwrapOne i C s).2 ∧ Later s (unwrapOne i C s).2 ∧
    (unwrapOne i C s).2.stack = s.stack := by
  rw [unwrapOne_eq]
  cases hp : (s.n i).parent with
  | none => exact ⟨h, .refl s, rfl⟩
  | some p =>
    simp only
    by_cases hc : (s.n p).children.contains i = true
    · rw [if_pos hc]
      refine ⟨unwrap_proper h hL hi hp (by simpa using hc) (unwrapAt_frame s p i) (heads_unwrapAt s p i) (content_unwrapAt s p i) fun _ => ⟨rfl, rfl⟩, Later.heads (heads_unwrapAt s p i), ?_⟩
      obtain ⟨k, hk⟩ := unwrapAt_frame s p i
      rw [hk]
    · rw [if_neg hc]; exact ⟨h.core rfl, Later.heads rfl, rfl⟩

theorem dropAll_ok (C : Cfg) (s : St) (h : Proper s) : Proper (dropAll C s).2 :=
  each_ind C Proper _ _ (fun _ i _ h => h.drop C i) h

theorem unwrapAll_ok (C : Cfg) (s : St) (h : Proper s) : Proper (unwrapAll C s).2 := by
  refine (each_ind (f := unwrapOne) C (fun t => Proper t ∧ Later s t ∧ t.stack = s.stack) s.toUnwrap.reverse s (fun t i hi ht => ?_) ⟨h, .refl s, rfl⟩).1
  obtain ⟨h1, h2, h3⟩ := ht
  have hr := h.recd i (List.mem_reverse.1 hi)
  have hl : Live t i := by
    unfold Live; rw [(head_ns (h2.2 i hr.1)).2, h3]; exact hr.2.1
  obtain ⟨k1, k2, k3⟩ := h1.unwrap C i hl (Nat.lt_of_lt_of_le hr.1 h2.1)
  exact ⟨k1, h2.trans k2, k3.trans h3⟩

end JH.Eng
