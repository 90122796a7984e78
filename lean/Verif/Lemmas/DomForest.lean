import Verif.Lemmas.DomStep
/-! From the invariant to the specification. -/
namespace JH

theorem kids_some {h : Heap} {p : Nat} {l : List Nat} (hl : (h.obj p).children = some l) : h.kids p = l := by
  unfold Heap.kids; rw [hl]; rfl

theorem some_kids {h : Heap} {p c : Nat} (hm : c ∈ h.kids p) : ∃ l, (h.obj p).children = some l ∧ c ∈ l := by
  unfold Heap.kids at hm
  rcases hc : (h.obj p).children with _ | l
  · rw [hc] at hm; cases hm
  · rw [hc] at hm; exact ⟨l, rfl, hm⟩

theorem above_chain {h : Heap} {a b : Nat} (ha : Spec.Above h a b) : ∃ p, h.par b = some p ∧ Chain h p a := by
  induction ha with
  | parent h1 => exact ⟨_, h1, .refl _⟩
  | up h1 _ ih =>
    obtain ⟨q, h2, h3⟩ := ih
    exact ⟨_, h1, .up h2 h3⟩

theorem chain_above {h : Heap} {a b : Nat} (hc : Chain h b a) : a = b ∨ Spec.Above h a b := by
  induction hc with
  | refl _ => exact .inl rfl
  | up h1 _ ih =>
    rcases ih with rfl | ih
    · exact .inr (.parent h1)
    · exact .inr (.up h1 ih)

theorem above_irrefl {h : Heap} (w : WF h) (n : Nat) : ¬ Spec.Above h n n := by
  intro ha
  obtain ⟨p, h1, h2⟩ := above_chain ha
  exact rooted_irrefl (w.rooted n) p h1 h2

theorem above_trans {h : Heap} {a b c : Nat} (h1 : Spec.Above h a b) (h2 : Spec.Above h b c) : Spec.Above h a c := by
  induction h2 with
  | parent h3 => exact .up h3 h1
  | up h3 _ ih => exact .up h3 ih

theorem below_above {h : Heap} (w : WF h) {a b : Nat} (hb : Spec.Below h a b) : Spec.Above h a b := by
  induction hb with
  | child h1 h2 => exact .parent (w.back _ _ (by rw [kids_some h1]; exact h2))
  | down h1 h2 _ ih => exact above_trans (.parent (w.back _ _ (by rw [kids_some h1]; exact h2))) ih

theorem wf_forest {h : Heap} (w : WF h) : Spec.Forest h := by
  refine ⟨?_, ?_, ?_, ?_, above_irrefl w, fun n hb => above_irrefl w n (below_above w hb)⟩
  · intro p l c hl hc; exact w.back p c (by rw [kids_some hl]; exact hc)
  · intro p l hl; have := w.once p; rw [kids_some hl] at this; exact this
  · intro p q l m c hl hm h1 h2
    have h3 := w.back p c (by rw [kids_some hl]; exact h1)
    have h4 := w.back q c (by rw [kids_some hm]; exact h2)
    rw [h3] at h4; injection h4
  · intro c p hp
    rcases w.up c p hp with h1 | h1
    · exact .inl (some_kids h1)
    · exact .inr ⟨(w.tpl p c h1).1, h1⟩

theorem inside_above {h : Heap} (w : WF h) (hh : Host h) {a b : Nat} (hi : Spec.Inside h a b) : Spec.Above h a b := by
  induction hi with
  | child h1 h2 => exact .parent (w.back _ _ (by rw [kids_some h1]; exact h2))
  | content h1 => exact .parent (hh _ _ h1)
  | trans _ _ ih1 ih2 => exact above_trans ih1 ih2

/-! ### Trees -/

mutual
theorem readsIn_reads {h : Heap} {F : Nat → Prop} : ∀ (t : Spec.Tree) (a : Nat), ReadsIn h F a t → Spec.Reads h a t
  | .mk l cs ct, a, hr => by
    cases hr with
    | mk _ h2 h3 => exact .mk (readsInL_reads cs _ h2) (readsInL_reads ct _ h3)
theorem readsInL_reads {h : Heap} {F : Nat → Prop} : ∀ (ts : List Spec.Tree) (l : List Nat), ReadsInL h F l ts → Spec.ReadsL h l ts
  | [], l, hr => by cases hr; exact .nil
  | t :: ts, l, hr => by
    cases hr with
    | cons h1 h2 => exact .cons (readsIn_reads t _ h1) (readsInL_reads ts _ h2)
end

mutual
theorem reads_readsIn {h : Heap} {F : Nat → Prop} (hk : ∀ n m, F n → m ∈ h.kids n → F m) (hc : ∀ n m, F n → h.cont n = some m → F m) :
    ∀ (t : Spec.Tree) (a : Nat), F a → Spec.Reads h a t → ReadsIn h F a t
  | .mk l cs ct, a, ha, hr => by
    cases hr with
    | mk h2 h3 =>
      refine .mk ha (readsL_readsIn hk hc cs _ (fun n hn => hk a n ha hn) h2) (readsL_readsIn hk hc ct _ ?_ h3)
      intro n hn
      rw [Option.mem_toList] at hn
      exact hc a n ha hn
theorem readsL_readsIn {h : Heap} {F : Nat → Prop} (hk : ∀ n m, F n → m ∈ h.kids n → F m) (hc : ∀ n m, F n → h.cont n = some m → F m) :
    ∀ (ts : List Spec.Tree) (l : List Nat), (∀ n ∈ l, F n) → Spec.ReadsL h l ts → ReadsInL h F l ts
  | [], l, _, hr => by cases hr; exact .nil
  | t :: ts, l, hl, hr => by
    cases hr with
    | cons h1 h2 =>
      exact .cons (reads_readsIn hk hc t _ (hl _ List.mem_cons_self) h1) (readsL_readsIn hk hc ts _ (fun n hn => hl n (List.mem_cons_of_mem _ hn)) h2)
end

theorem reads_in {h : Heap} (w : WF h) {a : Nat} {t : Spec.Tree} (ha : a < h.next) (hr : Spec.Reads h a t) : ReadsIn h (· < h.next) a t :=
  reads_readsIn (fun _ _ _ hm => (w.kid_lt hm).2) (fun _ _ _ hm => (w.cont_lt hm).2) t a ha hr

/-- Where template contents are in place, everything below a node is a tree. -/
theorem host_reads {h : Heap} (w : WF h) (hh : Host h) (a : Nat) : ∃ t, Spec.Reads h a t := by
  obtain ⟨r, hr⟩ := w.rank
  have list : ∀ (l : List Nat), (∀ n ∈ l, ∃ t, Spec.Reads h n t) → ∃ ts, Spec.ReadsL h l ts := by
    intro l
    induction l with
    | nil => intro _; exact ⟨[], .nil⟩
    | cons n l ih =>
      intro hl
      obtain ⟨t, ht⟩ := hl n List.mem_cons_self
      obtain ⟨ts, hts⟩ := ih (fun m hm => hl m (List.mem_cons_of_mem _ hm))
      exact ⟨t :: ts, .cons ht hts⟩
  have main : ∀ k a, r a ≤ k → ∃ t, Spec.Reads h a t := by
    intro k
    induction k with
    | zero =>
      intro a ha
      obtain ⟨cs, h1⟩ := list (h.kids a) (fun n hn => by have := hr n a (w.back a n hn); omega)
      obtain ⟨ct, h2⟩ := list (h.cont a).toList (fun n hn => by rw [Option.mem_toList] at hn; have := hr n a (hh a n hn); omega)
      exact ⟨_, .mk h1 h2⟩
    | succ k ih =>
      intro a ha
      obtain ⟨cs, h1⟩ := list (h.kids a) (fun n hn => ih n (by have := hr n a (w.back a n hn); omega))
      obtain ⟨ct, h2⟩ := list (h.cont a).toList (fun n hn => by rw [Option.mem_toList] at hn; exact ih n (by have := hr n a (hh a n hn); omega))
      exact ⟨_, .mk h1 h2⟩
  exact main (r a) a (Nat.le_refl _)

/-! ### Calls finish -/

theorem walkUp_stable {h : Heap} {node c : Nat} (hr : Rooted h c) : ∃ f0 b, ∀ f, f0 ≤ f → walkUp h node f (some c) = some b := by
  induction hr with
  | @root n h1 =>
    by_cases e : n = node
    · refine ⟨1, true, ?_⟩
      intro f hf
      obtain ⟨g, rfl⟩ : ∃ g, f = g + 1 := ⟨f - 1, by omega⟩
      rw [walkUp, if_pos e]
    · refine ⟨2, false, ?_⟩
      intro f hf
      obtain ⟨g, rfl⟩ : ∃ g, f = g + 2 := ⟨f - 2, by omega⟩
      have h1 : (h.obj n).parent = none := h1
      rw [walkUp, if_neg e, h1, walkUp]
  | @up n p h1 _ ih =>
    obtain ⟨f0, b, hf0⟩ := ih
    by_cases e : n = node
    · refine ⟨1, true, ?_⟩
      intro f hf
      obtain ⟨g, rfl⟩ : ∃ g, f = g + 1 := ⟨f - 1, by omega⟩
      rw [walkUp, if_pos e]
    · refine ⟨f0 + 1, b, ?_⟩
      intro f hf
      obtain ⟨g, rfl⟩ : ∃ g, f = g + 1 := ⟨f - 1, by omega⟩
      have h1 : (h.obj n).parent = some p := h1
      rw [walkUp, if_neg e, h1]
      exact hf0 g (by omega)

/-- With enough steps a call has one result. -/
def Stable {α : Type} (x : Nat → Res α) : Prop := ∃ f0 r, ∀ f, f0 ≤ f → x f = some r

theorem stable_const {α : Type} (r : Heap × Option α) : Stable (fun _ => some r) := ⟨0, r, fun _ _ => rfl⟩

theorem stable_andThen {α β : Type} {x : Nat → Res α} {k : Heap → α → Res β} (hx : Stable x) (hk : ∀ h a, ∃ r, k h a = some r) :
    Stable (fun f => Res.andThen (x f) k) := by
  obtain ⟨f0, ⟨h, _ | a⟩, hf⟩ := hx
  · exact ⟨f0, (h, none), fun f h1 => by dsimp only; rw [hf f h1]; rfl⟩
  · obtain ⟨r, hr⟩ := hk h a
    exact ⟨f0, r, fun f h1 => by dsimp only; rw [hf f h1]; exact hr⟩

theorem adopt_stable {h : Heap} (w : WF h) (self node : Nat) : Stable (fun f => h.adopt f self node) := by
  unfold Heap.adopt
  by_cases e : node = self
  · simp only [if_pos e]; exact stable_const _
  · simp only [if_neg e]
    by_cases c : (h.obj node).parent = none ∧ h.kids node = [] ∧ ((h.obj node).kind ≠ .template ∨ (h.obj node).content = none)
    · simp only [if_pos c]; exact stable_const _
    · simp only [if_neg c]
      obtain ⟨f0, b, hf⟩ := walkUp_stable (node := node) (w.rooted self)
      cases b with
      | true => exact ⟨f0, _, fun f h1 => by dsimp only; rw [hf f h1]⟩
      | false => exact ⟨f0, _, fun f h1 => by dsimp only; rw [hf f h1]⟩

theorem insertFragment_stable {h : Heap} (w : WF h) (self frag : Nat) (ref : Option Nat) : Stable (fun f => h.insertFragment f self frag ref) := by
  unfold Heap.insertFragment
  apply stable_andThen (adopt_stable w self frag)
  intro h1 a
  split
  · exact ⟨_, rfl⟩
  · exact ⟨_, rfl⟩

theorem append_stable {h : Heap} (w : WF h) (self node : Nat) : Stable (fun f => h.append f self node) := by
  unfold Heap.append
  by_cases c : (h.obj self).kind = .text
  · simp only [if_pos c]; exact stable_const _
  · simp only [if_neg c]
    cases (h.obj self).children with
    | none => exact stable_const _
    | some l =>
      dsimp only
      by_cases d : (h.obj node).kind = .fragment
      · simp only [if_pos d]; exact insertFragment_stable w self node none
      · simp only [if_neg d]
        exact stable_andThen (adopt_stable w self node) fun _ _ => ⟨_, rfl⟩

theorem remove_total (h : Heap) (self node : Nat) : ∃ r, h.remove self node = some r := by
  unfold Heap.remove
  split
  · exact ⟨_, rfl⟩
  · split
    · exact ⟨_, rfl⟩
    · split <;> exact ⟨_, rfl⟩

theorem step_stable {h : Heap} (i : Inv h) (op : DomOp) (hc : ∀ a ov, op = .clone a true ov → a < h.next ∧ ∃ t, Spec.Reads h a t) : Stable (fun f => h.step f op) := by
  have w := i.wf
  cases op with
  | create k name ns data attrs => exact stable_const _
  | append self node => exact append_stable w self node
  | insertBefore self node ref =>
    simp only [Heap.step]
    unfold Heap.insertBefore
    cases hk : (h.obj self).children with
    | none => cases ref <;> exact stable_const _
    | some l =>
      cases ref with
      | none => exact append_stable w self node
      | some r =>
        dsimp only
        by_cases e : node = r
        · simp only [if_pos e]; exact stable_const _
        · simp only [if_neg e]
          cases hi : l.idxOf? r with
          | none => exact stable_const _
          | some j =>
            dsimp only
            by_cases d : (h.obj node).kind = .fragment
            · simp only [if_pos d]; exact insertFragment_stable w self node (some r)
            · simp only [if_neg d]
              exact stable_andThen (adopt_stable w self node) fun _ _ => ⟨_, rfl⟩
  | replace self new old =>
    simp only [Heap.step]
    unfold Heap.replace
    cases hk : (h.obj self).children with
    | none => exact stable_const _
    | some l =>
      dsimp only
      cases hi : l.idxOf? old with
      | none => exact stable_const _
      | some j =>
        dsimp only
        by_cases e : new = old
        · simp only [if_pos e]; exact stable_const _
        · simp only [if_neg e]
          by_cases d : (h.obj new).kind = .fragment
          · simp only [if_pos d]
            exact stable_andThen (insertFragment_stable w self new (some old)) fun h1 _ => remove_total h1 self old
          · simp only [if_neg d]
            exact stable_andThen (adopt_stable w self new) fun _ _ => ⟨_, rfl⟩
  | remove self node =>
    obtain ⟨r, hr⟩ := remove_total h self node
    exact ⟨0, r, fun _ _ => hr⟩
  | clone a deep ov =>
    simp only [Heap.step]
    refine stable_andThen ?_ fun _ _ => ⟨_, rfl⟩
    cases deep with
    | false => exact stable_const _
    | true =>
      obtain ⟨ha, t, ht⟩ := hc a ov rfl
      obtain ⟨k, h', e, -, -⟩ := clone_reads i ha (reads_in i.wf ha ht) ov
      exact ⟨k, _, e⟩
  | setAttr a key value =>
    simp only [Heap.step]
    cases (h.obj a).attrs with
    | none => exact stable_const _
    | some d => exact stable_const _
  | setData a data => exact stable_const _

end JH
