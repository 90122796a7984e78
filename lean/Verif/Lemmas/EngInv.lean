import Verif.Lemmas.EngHeads

/-! The invariant behind tag safety: every element is allowed, or recorded to be dropped or unwrapped at the end. -/
namespace JH.Eng

/-- The node will be dropped or unwrapped at the end. -/
def Rec (s : St) (i : Nat) : Prop := i ∈ s.toDrop ∨ i ∈ s.toUnwrap

/-- The namespace of the context. -/
def Cfg.ctxNsOf (C : Cfg) : Str := match C.ctxNs with | some [] => c%"html" | some x => x | none => c%"html"

/-- An allowed element. -/
def Spared (C : Cfg) (name : Str) (ns : Option Str) : Prop := ns = some c%"html" ∧ name ∈ C.plan.allowedTags

/-- Every element is one of the parser's own, recorded, allowed, or the context `o` of the fragment. -/
structure Inv (C : Cfg) (o : Option Nat) (s : St) : Prop where
  drop : ∀ i ∈ s.toDrop, i ∈ s.toUnwrap
  kept : C.plan.rawMode = false → ∀ (i : Nat) (x : Kind × Str × Option Str), s.heads[i]? = some x → x.1 = .element ∨ x.1 = .template →
    x.2.2 = poNs ∨ i ∈ s.toUnwrap ∨ Spared C x.2.1 x.2.2 ∨ o = some i

section
variable {C : Cfg} {o : Option Nat}

/-- A step that makes the nodes `l`. -/
theorem Inv.grow {s t : St} (h : Inv C o s) (l : List (Kind × Str × Option Str)) (hh : t.heads = s.heads ++ l) (hu : ∀ i ∈ s.toUnwrap, i ∈ t.toUnwrap)
    (hd : ∀ i ∈ t.toDrop, i ∈ s.toDrop ∨ i ∈ t.toUnwrap)
    (hn : C.plan.rawMode = false → ∀ (k : Nat) (x : Kind × Str × Option Str), l[k]? = some x → x.1 = .element ∨ x.1 = .template → x.2.2 = poNs ∨ s.heap.length + k ∈ t.toUnwrap ∨ Spared C x.2.1 x.2.2 ∨ o = some (s.heap.length + k)) : Inv C o t := by
  refine ⟨fun i hi => (hd i hi).elim (fun k => hu i (h.drop i k)) id, fun hr i x hx hk => ?_⟩
  have hlen : s.heads.length = s.heap.length := by simp [St.heads]
  rw [hh] at hx
  by_cases hi : i < s.heap.length
  · rw [List.getElem?_append_left (by omega)] at hx
    rcases h.kept hr i x hx hk with k | k | k
    · exact .inl k
    · exact .inr (.inl (hu i k))
    · exact .inr (.inr k)
  · rw [List.getElem?_append_right (by omega)] at hx
    have := hn hr _ x hx hk
    rw [hlen] at this
    rwa [show s.heap.length + (i - s.heap.length) = i by omega] at this

/-- A step that makes no node and records none. -/
theorem Inv.same {s t : St} (h : Inv C o s) (hh : t.heads = s.heads) (hd : t.toDrop = s.toDrop) (hu : t.toUnwrap = s.toUnwrap) : Inv C o t :=
  h.grow [] (by simp [hh]) (fun i hi => hu ▸ hi) (fun i hi => .inl (hd ▸ hi)) fun _ k x hx => absurd hx (by simp)

/-- A step that makes a node that is not an element. -/
theorem Inv.other {s t : St} (h : Inv C o s) (n : ENode) (hn : LeafOk C n) (hh : t.heads = s.heads ++ [n.head]) (hd : t.toDrop = s.toDrop) (hu : t.toUnwrap = s.toUnwrap) : Inv C o t := by
  refine h.grow [n.head] hh (fun i hi => hu ▸ hi) (fun i hi => .inl (hd ▸ hi)) fun _ k x hx hk => ?_
  have : x = n.head := by
    have := List.mem_of_getElem? hx
    simpa using this
  subst this
  have := leaf_kind hn
  exact hk.elim (fun k => absurd k this.1) fun k => absurd k this.2.1

/-- A copy of a formatting element. -/
theorem Inv.copy {s t : St} (h : Inv C o s) (name : Str) (attrs : Attrs) (u : Bool) (hu : u = true ∨ C.plan.rawMode = true ∨ name ∈ C.plan.allowedTags)
    (hh : t.heads = s.heads ++ [(elementNode name attrs (some c%"html")).head]) (hd : t.toDrop = s.toDrop) (hU : t.toUnwrap = s.toUnwrap ++ if u then [s.heap.length] else []) : Inv C o t := by
  refine h.grow _ hh (fun i hi => by rw [hU]; exact List.mem_append_left _ hi) (fun i hi => .inl (hd ▸ hi)) fun hr k x hx hk => ?_
  cases k with
  | succ k => simp at hx
  | zero =>
    have : x = (elementNode name attrs (some c%"html")).head := by simpa using hx.symm
    subst this
    rcases hu with hu | hu | hu
    · right; left; rw [hU, hu]; simp
    · rw [hr] at hu; exact absurd hu (by simp)
    · exact .inr (.inr (.inl ⟨rfl, hu⟩))

theorem Step.inv {s t : St} (h : Inv C o s) (st : Step C s t) : Inv C o t := by
  cases st with
  | ctl e =>
    have e' := e
    simp only [St.core, Prod.mk.injEq] at e'
    exact h.same (heads_of e'.1) e'.2.2.2.2.2.2.2.2.1 e'.2.2.2.2.2.2.2.2.2.1
  | stack l hl => exact h.same rfl rfl rfl
  | fmt l hl => exact h.same rfl rfl rfl
  | entry e _ _ _ _ _ => exact h.same rfl rfl rfl
  | garbage n hn => exact h.other n hn (heads_add s n) rfl rfl
  | data i f hk => exact h.same (heads_upd _ _ _ fun _ => rfl) rfl rfl
  | leaf n p pos hn => exact h.other n hn ((heads_link _ _ _ _).trans (heads_add s n)) rfl rfl
  | elem n l p pos u d hn hu hd _ =>
    have hh : ({ ({ s with heap := s.heap ++ n :: l } : St).link p pos s.heap.length with
        toUnwrap := s.toUnwrap ++ if u then [s.heap.length] else []
        toDrop := s.toDrop ++ if d then [s.heap.length] else []
        hasSelected := s.hasSelected || n.name = c%"selectedcontent" } : St).heads = s.heads ++ (n.head :: l.map ENode.head) :=
      (heads_of rfl).trans ((heads_link ({ s with heap := s.heap ++ n :: l } : St) p pos s.heap.length).trans (by simp [St.heads]))
    refine h.grow _ hh (fun i hi => List.mem_append_left _ hi) (fun i hi => ?_) fun hr k x hx hk => ?_
    · rcases List.mem_append.1 hi with hi | hi
      · exact .inl hi
      · right
        cases d with
        | false => simp at hi
        | true => rw [hd rfl]; exact List.mem_append_right _ hi
    · cases k with
      | zero =>
        have : x = n.head := by simpa using hx.symm
        subst this
        rcases hu with hu | hu
        · right; left; rw [hu]; simp
        · rcases hu with hu | hu
          · rw [hr] at hu; exact absurd hu (by simp)
          · exact .inr (.inr (.inl hu))
      | succ k =>
        have hm := List.mem_of_getElem? hx
        cases hn with
        | plain => simp at hx
        | template attrs =>
          have : x.1 = .fragment := by
            have := List.mem_of_getElem? (show (List.map ENode.head [({ kind := .fragment, name := c%"#document-fragment", parent := some s.heap.length } : ENode)])[k]? = some x by simpa using hx)
            simp at this
            rw [this]; rfl
          rw [this] at hk
          exact absurd hk (by decide)
  | clone e u he hu => exact h.copy e.name e.attrs u hu ((heads_of rfl).trans (heads_add s (elementNode e.name e.attrs (some c%"html")))) rfl rfl
  | poNew _ =>
    refine h.grow [(elementNode c%"template" [] poNs).head] ((heads_of rfl).trans (heads_add s (elementNode c%"template" [] poNs))) (fun i hi => hi) (fun i hi => .inl hi) fun _ k x hx _ => ?_
    have : x = (elementNode c%"template" [] poNs).head := by
      have := List.mem_of_getElem? hx
      simpa using this
    subst this
    exact .inl rfl
  | move c p pos hc hns =>
    obtain ⟨k, hk⟩ := detach_frame s c
    refine h.same ((heads_link _ _ _ _).trans (heads_detach _ _)) ?_ ?_ <;> (rw [hk]; rfl)
  | wrap e u b he hu hb hbns =>
    have hfr : ∀ (x : St) (a b : Nat), (x.moveChildren a b).toUnwrap = x.toUnwrap := fun x a b =>
      foldl_frame (f := fun s c => s.appendMoved b c) St.toUnwrap (fun _ _ => rfl) _ _
    have hfd : ∀ (x : St) (a b : Nat), (x.moveChildren a b).toDrop = x.toDrop := fun x a b =>
      foldl_frame (f := fun s c => s.appendMoved b c) St.toDrop (fun _ _ => rfl) _ _
    exact h.copy e.name e.attrs u hu ((heads_linkLast _ _ _).trans ((heads_moveChildren _ _ _).trans ((heads_of rfl).trans (heads_add s (elementNode e.name e.attrs (some c%"html"))))))
      (hfd _ _ _) (hfr _ _ _)
  | shrink p l hl => exact h.same (heads_upd _ _ _ fun _ => rfl) rfl rfl
  | clearBody =>
    exact h.same (heads_clearBody s)
      (foldl_frame (f := fun s c => s.upd c fun n => { n with parent := none }) St.toDrop (fun _ _ => rfl) (s.n s.body).children s)
      (foldl_frame (f := fun s c => s.upd c fun n => { n with parent := none }) St.toUnwrap (fun _ _ => rfl) (s.n s.body).children s)
  | dropBody hx hhtml => exact h.same (heads_two _ _ _ _ _ (fun _ => rfl) fun _ => rfl) rfl rfl
  | closePo i node parent hi hns =>
    refine h.same ((heads_of rfl).trans (heads_foldl (f := fun s c => s.append parent c) (fun s c => heads_append s _ c) _ _))
      (foldl_frame (f := fun s c => s.append parent c) St.toDrop (fun s c => ?_) (s.n node).children s)
      (foldl_frame (f := fun s c => s.append parent c) St.toUnwrap (fun s c => ?_) (s.n node).children s) <;>
    · obtain ⟨k, hk⟩ := append_frame s parent c; rw [hk]
  | attrs i as _ => exact h.same (heads_upd _ _ _ fun _ => rfl) rfl rfl

theorem Steps.inv {s t : St} (h : Inv C o s) (st : Steps C s t) : Inv C o t := by
  replace st := st.chain
  induction st with
  | refl => exact h
  | tail _ st ih => exact st.inv ih

end

end JH.Eng
