import Verif.ListOf.Inv
set_option autoImplicit false
/-
The effect of calls on lists of objects.
-/
namespace Nestl.LO
open Nestl.VO (Elem ElemOps)
open Nestl.NO
open Nestl.LL (LNode El Lst Sg St Ring Heap dat nxt prv ptrs)
open Classical
variable {S A X α : Type} {E : Elem S A X} {s : ST S} {σ : Sg Ptr} {u : (Ptr → Option A) × X} {i : S}

/-- The state at the beginning of a call. -/
def Begin (E : Elem S A X) (u : (Ptr → Option A) × X) (i : S) (s : ST S) : Prop := Keep E u s ∧ NoErr s ∧ s.i = i

/-- What a call does outside of the lists. -/
def Effect (E : Elem S A X) (u : (Ptr → Option A) × X) : Call S → ST S → Prop
  | .insertMove _ _ t | .pushBackMove _ t | .pushFrontMove _ t =>
    Tried (Keep E u) fun s => Keep E (movedOut E u t) s ∧ NoErr s
  | _ => Keep E u

theorem Begin.arg {a : CArg} {x : A} (h : a.Means E.blank (E.val i) x) (s : ST S) (hs : Begin E u i s) : ArgRel E a.arg x s := by
  cases a with
  | obj t => exact (congrArg (E.val · t) hs.2.2).trans h
  | fresh => exact h

theorem Begin.args {ts : List Ptr} {xs : List A} (h : ts.map (E.val i) = xs.map some) (s : ST S) (hs : Begin E u i s) :
    KnowsAll E ts xs s := by unfold KnowsAll; rw [hs.2.2]; exact h

theorem stk_of_alive {V : Type} {o : LL.W V} {v : Ptr} (h : LC.Alive o v) : ∃ k, v = .stk k := by
  obtain ⟨k, rfl, -⟩ := h; exact ⟨k, rfl⟩

theorem sim_exec {o : LL.W Ptr} {c : Call S} {c' : LC.Call A} (hv : LC.Valid o c.addr) (hm : c.Means E (E.val i) c')
    (hmv : ∀ q, c.moves q → u.1 q = E.val i q) : Sim E (Begin E u i) (exec E.toElemOps c) (LC.exec c') fun _ => Effect E u c := by
  have hL := Keep.loose (N := LNode) (E := E) (u := u)
  have hG := hL.grows
  have hS := hG.stable
  have hq : ∀ {β γ : Type} {m : M (ST S) β} {n : M (LL.W A) β} (r : γ), QSim E (Keep E u) m n (fun _ => Keep E u) →
      Sim E (Begin E u i) (m >>= fun _ => pure r) (n >>= fun _ => pure r) fun _ => Keep E u :=
    fun r h => Sim.bind (h.sim.weaken (fun _ h => h.1) fun _ _ h => h) fun _ => Sim.pure _ fun _ h => h
  have hq' : ∀ {β γ : Type} {m : M (ST S) β} {n : M (LL.W A) β} (r : β → γ), QSim E (Keep E u) m n (fun _ => Keep E u) →
      Sim E (Begin E u i) (m >>= fun x => pure (r x)) (n >>= fun x => pure (r x)) fun _ => Keep E u :=
    fun r h => Sim.bind (h.sim.weaken (fun _ h => h.1) fun _ _ h => h) fun _ => Sim.pure _ fun _ h => h
  have hd : ∀ {β γ : Type} {m : M (ST S) β} {n : M (LL.W A) β} (r : β → γ) {P Q : ST S → Prop}, (∀ s, Begin E u i s → P s) →
      Sim E P m n (fun _ => Q) →
      Sim E (Begin E u i) (m >>= fun x => pure (r x)) (n >>= fun x => pure (r x)) fun _ => Q :=
    fun r _ _ hp h => Sim.bind (h.weaken hp fun _ _ h => h) fun _ => Sim.pure _ fun _ h => h
  have hA : ∀ {β γ : Type} {m : M (ST S) β} {n : M (LL.W A) β} (r : β → γ) {a : CArg} {x : A}, a.Means E.blank (E.val i) x →
      (∀ P : ST S → Prop, Grows E P → (∀ s, P s → ArgRel E a.arg x s) → (∀ s, P s → Keep E u s) → Sim E P m n fun _ => Keep E u) →
      Sim E (Begin E u i) (m >>= fun x => pure (r x)) (n >>= fun x => pure (r x)) fun _ => Keep E u := by
    intro β γ m n r a x hx h
    exact hd r (P := fun s => Keep E u s ∧ ArgRel E a.arg x s) (fun s hs => ⟨hs.1, Begin.arg hx s hs⟩)
      (h _ (hG.and ArgRel.grows) (fun _ h => h.2) fun _ h => h.1)
  have hmvS : ∀ t, Stable fun s : ST S => Keep E (movedOut E u t) s ∧ NoErr s :=
    fun t => (Keep.loose (N := LNode) (E := E)).grows.stable.and NoErr.stable
  cases c with
  | create a => obtain rfl := hm; exact hq' _ ((n_newList a).quiet' hS)
  | insert s pos a =>
    obtain ⟨x, hx, rfl⟩ := hm
    exact hA _ hx fun P h1 h2 h3 => (c_emplace h1 h2 s pos).weaken (fun _ h => h) fun _ _ h => h3 _ h
  | insertMove s pos t =>
    obtain ⟨x, hx, rfl⟩ := hm
    exact hd _ (fun _ h => h.1) (s_emplace hG (hmvS t) (.move ((hmv t rfl).trans hx)) s pos)
  | insertN s pos n a =>
    obtain ⟨x, hx, rfl⟩ := hm
    exact hA _ hx fun P h1 h2 h3 => (c_insertN h1 h2 s pos n).weaken (fun _ h => h) fun _ _ h => h3 _ h
  | insertRange s pos ts =>
    obtain ⟨xs, hx, rfl⟩ := hm
    exact hd _ (fun s hs => ⟨hs.1, Begin.args hx s hs⟩) (c_insertRange hL s pos ts xs)
  | erase s pos => obtain rfl := hm; exact hq' _ (q_erase hL s pos)
  | eraseRange s f l => obtain rfl := hm; exact hq' _ (q_eraseRange hL s f l)
  | pushBack s a =>
    obtain ⟨x, hx, rfl⟩ := hm
    exact hA _ hx fun P h1 h2 h3 => (c_pushBack h1 h2 s).weaken (fun _ h => h) fun _ _ h => h3 _ h
  | pushBackMove s t =>
    obtain ⟨x, hx, rfl⟩ := hm
    exact hd _ (fun _ h => h.1) (s_pushBack hG (hmvS t) (.move ((hmv t rfl).trans hx)) s)
  | pushFront s a =>
    obtain ⟨x, hx, rfl⟩ := hm
    exact hA _ hx fun P h1 h2 h3 => (c_pushFront h1 h2 s).weaken (fun _ h => h) fun _ _ h => h3 _ h
  | pushFrontMove s t =>
    obtain ⟨x, hx, rfl⟩ := hm
    exact hd _ (fun _ h => h.1) (s_pushFront hG (hmvS t) (.move ((hmv t rfl).trans hx)) s)
  | popBack s => obtain rfl := hm; exact hq _ (q_popBack hL s)
  | popFront s => obtain rfl := hm; exact hq _ (q_popFront hL s)
  | clear s => obtain rfl := hm; exact hq _ (q_clear hL s)
  | assignN s n a =>
    obtain ⟨x, hx, rfl⟩ := hm
    exact hA _ hx fun P h1 h2 h3 => c_assignN h1 h2 hL h3 s n
  | assignObjs s ts =>
    obtain ⟨xs, hx, rfl⟩ := hm
    exact hd _ (fun s hs => ⟨hs.1, Begin.args hx s hs⟩) (c_assignVals hL s ts xs)
  | assignRange s t f l => obtain rfl := hm; exact hd _ (fun s hs => ⟨hs.1, hs.2.1⟩) (c_assignIt hL s f l)
  | copy d s => obtain rfl := hm; exact hd _ (fun s hs => ⟨hs.1, hs.2.1⟩) (c_copyNothrow hL d s)
  | move s => obtain rfl := hm; exact hq' _ ((n_moveCtor s).quiet' hS)
  | moveAssign s t => obtain rfl := hm; exact hq _ (q_moveAssign hL s t)
  | swap s t => obtain rfl := hm; exact hq _ ((n_swap s t).quiet' hS)
  | merge less s t =>
    obtain ⟨lt, hc, rfl⟩ := hm
    exact hq _ (q_merge hc hG.calm s t)
  | spliceAll s pos t => obtain rfl := hm; exact hq _ ((n_spliceAll pos t).quiet' hS)
  | spliceOne s pos t it => obtain rfl := hm; exact hq _ ((n_spliceOne pos it).quiet' hS)
  | spliceRange s pos t f l => obtain rfl := hm; exact hq _ ((n_spliceRange pos f l).quiet' hS)
  | sort less s =>
    obtain ⟨lt, hc, rfl⟩ := hm
    exact hq _ (q_sort hc hL s)
  | destroy s =>
    obtain rfl := hm
    obtain ⟨k, rfl⟩ := stk_of_alive hv
    exact hq _ (q_destroyList hL k)

/-! ### Preconditions -/

/-- Positions and values in place of positions and objects. -/
def lv (f : Ptr → Option A) (L : List (Ptr × Ptr)) : List (Ptr × A) := L.filterMap fun x => (f x.2).map fun a => (x.1, a)

@[simp] theorem lv_append (f : Ptr → Option A) (L M : List (Ptr × Ptr)) : lv f (L ++ M) = lv f L ++ lv f M := List.filterMap_append

theorem lv_cons {f : Ptr → Option A} {x : Ptr × Ptr} {a : A} (h : f x.2 = some a) (L : List (Ptr × Ptr)) :
    lv f (x :: L) = (x.1, a) :: lv f L := by
  unfold lv
  rw [List.filterMap_cons, h]
  rfl

theorem lv_view (f : Ptr → Option A) (l : List (El Ptr)) : LC.view (l.filterMap (liftE f)) = lv f (LC.view l) := by
  induction l with
  | nil => rfl
  | cons e l ih =>
    cases h : f e.v with
    | none =>
      rw [List.filterMap_cons, show liftE f e = none by unfold liftE; rw [h]; rfl]
      simp only [LC.view_cons, ih]
      unfold lv
      rw [List.filterMap_cons]
      simp only [h, Option.map_none]
    | some a =>
      rw [List.filterMap_cons, show liftE f e = some ⟨e.p, a, e.own⟩ by unfold liftE; rw [h]; rfl]
      simp only [LC.view_cons, ih]
      exact (lv_cons (x := (e.p, e.v)) h _).symm

theorem lv_length {f : Ptr → Option A} : ∀ {L : List (Ptr × Ptr)}, (∀ x ∈ L, f x.2 ≠ none) → (lv f L).length = L.length
  | [], _ => rfl
  | x :: L, h => by
    obtain ⟨a, ha⟩ := Option.ne_none_iff_exists'.1 (h x (by simp))
    rw [lv_cons ha, List.length_cons, List.length_cons, lv_length fun x hx => h x (by simp [hx])]

theorem lv_nil_iff {f : Ptr → Option A} {L : List (Ptr × Ptr)} (h : ∀ x ∈ L, f x.2 ≠ none) : lv f L = [] ↔ L = [] := by
  rw [← List.length_eq_zero_iff, ← List.length_eq_zero_iff, lv_length h]

theorem lv_pos {f : Ptr → Option A} {t : Ptr} {L : List (Ptr × Ptr)} (h : ∀ x ∈ L, f x.2 ≠ none) :
    LC.posOf t (lv f L) = LC.posOf t L := by
  cases L with
  | nil => rfl
  | cons x L =>
    obtain ⟨a, ha⟩ := Option.ne_none_iff_exists'.1 (h x (by simp))
    rw [lv_cons ha]; rfl

theorem lv_map {f : Ptr → Option A} : ∀ {L : List (Ptr × Ptr)}, (∀ x ∈ L, f x.2 ≠ none) →
    (lv f L).map (fun x => (x.1, some x.2)) = L.map fun x => (x.1, f x.2)
  | [], _ => rfl
  | x :: L, h => by
    obtain ⟨a, ha⟩ := Option.ne_none_iff_exists'.1 (h x (by simp))
    rw [lv_cons ha, List.map_cons, List.map_cons, lv_map fun x hx => h x (by simp [hx]), ha]

/-- The preconditions in terms of the values. -/
theorem valid_lift (h : NInv E s σ) {c : Call S} {c' : LC.Call A} (hv : LC.Valid s.o c.addr) {f : Ptr → Option A} (hm : c.Means E f c')
    {w : LL.W A} (hi : LL.Inv w (lift (E.val s.i) σ)) : LC.Valid w c' := by
  have hl : ∀ {v : Ptr} {x : Lst Ptr}, σ v = some x → lift (E.val s.i) σ v = some ⟨x.alloc, x.els.filterMap (liftE (E.val s.i))⟩ := by
    intro v x hx; simp [lift, hx]
  have ha : ∀ {v : Ptr}, LC.Alive s.o v → LC.Alive w v := by
    intro v hv
    obtain ⟨x, hx⟩ := (LC.alive_iff h.outer).1 hv
    exact (LC.alive_iff hi).2 ⟨_, hl hx⟩
  have hc : ∀ {v : Ptr} {L : List (Ptr × Ptr)}, LC.Alive s.o v → LC.Contents s.o v L →
      LC.Contents w v (lv (E.val s.i) L) ∧ ∀ x ∈ L, E.val s.i x.2 ≠ none := by
    intro v L hv hL
    obtain ⟨x, hx⟩ := (LC.alive_iff h.outer).1 hv
    obtain rfl := (LC.contents_iff h.outer hx).1 hL
    refine ⟨(LC.contents_iff hi (hl hx)).2 (lv_view _ _).symm, ?_⟩
    intro y hy
    obtain ⟨e, he, rfl⟩ := List.mem_map.1 hy
    exact h.live _ _ _ hx he
  have hc0 : ∀ {v : Ptr}, LC.Alive s.o v → ¬ LC.Contents s.o v [] → ¬ LC.Contents w v [] := by
    intro v hv hn h0
    obtain ⟨x, hx⟩ := (LC.alive_iff h.outer).1 hv
    have h1 := (LC.contents_iff hi (hl hx)).1 h0
    apply hn
    refine (LC.contents_iff h.outer hx).2 ?_
    rw [lv_view] at h1
    refine ((lv_nil_iff ?_).1 h1.symm).symm
    intro y hy
    obtain ⟨e, he, rfl⟩ := List.mem_map.1 hy
    exact h.live _ _ _ hx he
  have hal : ∀ {v : Ptr} {a : Nat}, LC.Alive s.o v → LC.HasAlloc s.o v a → LC.HasAlloc w v a := by
    intro v a hv h0
    obtain ⟨x, hx⟩ := (LC.alive_iff h.outer).1 hv
    exact (LC.hasAlloc_iff hi (hl hx)).2 ((LC.hasAlloc_iff h.outer hx).1 h0)
  have hass : ∀ {v : Ptr}, LC.Alive s.o v → LC.Assignable s.o v → LC.Assignable w v := by
    intro v hv h0
    exact h0.imp (hal hv) fun h1 => (hc (L := []) hv h1).1
  have hsame : ∀ {v t : Ptr}, LC.Alive s.o v → LC.Alive s.o t → LC.SameAlloc s.o v t → LC.SameAlloc w v t := by
    rintro v t hv ht ⟨a, h1, h2⟩
    exact ⟨a, hal hv h1, hal ht h2⟩
  have hpos : ∀ {v pos : Ptr}, LC.Alive s.o v → LC.IsPos s.o v pos → LC.IsPos w v pos := by
    rintro v pos hv ⟨X, Y, h1, rfl⟩
    obtain ⟨h2, h3⟩ := hc hv h1
    rw [lv_append] at h2
    exact ⟨_, _, h2, (lv_pos fun x hx => h3 x (by simp [hx])).symm⟩
  have hel : ∀ {v pos : Ptr}, LC.Alive s.o v → (∃ X q Y, LC.Contents s.o v (X ++ (pos, q) :: Y)) →
      ∃ X x Y, LC.Contents w v (X ++ (pos, x) :: Y) := by
    rintro v pos hv ⟨X, q, Y, h1⟩
    obtain ⟨h2, h3⟩ := hc hv h1
    obtain ⟨a, ha⟩ := Option.ne_none_iff_exists'.1 (h3 (pos, q) (by simp))
    rw [lv_append, lv_cons ha] at h2
    exact ⟨_, _, _, h2⟩
  have hra : ∀ {v f l : Ptr} {R : Prop}, LC.Alive s.o v → (∃ X M Y, LC.Contents s.o v (X ++ (M ++ Y)) ∧ f = LC.posOf v (M ++ Y) ∧
      l = LC.posOf v Y ∧ (R → Y ≠ [])) → ∃ X M Y, LC.Contents w v (X ++ (M ++ Y)) ∧ f = LC.posOf v (M ++ Y) ∧
      l = LC.posOf v Y ∧ (R → Y ≠ []) := by
    rintro v f l R hv ⟨X, M, Y, h1, rfl, rfl, h4⟩
    obtain ⟨h2, h3⟩ := hc hv h1
    rw [lv_append, lv_append] at h2
    refine ⟨_, _, _, h2, ?_, (lv_pos fun x hx => h3 x (by simp [hx])).symm, fun hR e => h4 hR ((lv_nil_iff fun x hx => h3 x (by simp [hx])).1 e)⟩
    rw [← lv_append]
    exact (lv_pos fun x hx => h3 x (by simp only [List.mem_append] at *; exact .inr hx)).symm
  have hra' : ∀ {v f l : Ptr}, LC.Alive s.o v → (∃ X M Y, LC.Contents s.o v (X ++ (M ++ Y)) ∧ f = LC.posOf v (M ++ Y) ∧
      l = LC.posOf v Y) → ∃ X M Y, LC.Contents w v (X ++ (M ++ Y)) ∧ f = LC.posOf v (M ++ Y) ∧ l = LC.posOf v Y := by
    rintro v f l hv ⟨X, M, Y, h1, h2, h3⟩
    obtain ⟨X, M, Y, h1, h2, h3, -⟩ := hra (R := False) hv ⟨X, M, Y, h1, h2, h3, fun h => h.elim⟩
    exact ⟨X, M, Y, h1, h2, h3⟩
  cases c with
  | create a => obtain rfl := hm; trivial
  | insert v pos a => obtain ⟨x, -, rfl⟩ := hm; exact ⟨ha hv.1, hpos hv.1 hv.2⟩
  | insertMove v pos t => obtain ⟨x, -, rfl⟩ := hm; exact ⟨ha hv.1, hpos hv.1 hv.2⟩
  | insertN v pos n a => obtain ⟨x, -, rfl⟩ := hm; exact ⟨ha hv.1, hpos hv.1 hv.2⟩
  | insertRange v pos ts => obtain ⟨x, -, rfl⟩ := hm; exact ⟨ha hv.1, hpos hv.1 hv.2⟩
  | erase v pos => obtain rfl := hm; exact ⟨ha hv.1, hel hv.1 hv.2⟩
  | eraseRange v f l => obtain rfl := hm; exact ⟨ha hv.1, hra' hv.1 hv.2⟩
  | pushBack v a => obtain ⟨x, -, rfl⟩ := hm; exact ha hv
  | pushBackMove v a => obtain ⟨x, -, rfl⟩ := hm; exact ha hv
  | pushFront v a => obtain ⟨x, -, rfl⟩ := hm; exact ha hv
  | pushFrontMove v a => obtain ⟨x, -, rfl⟩ := hm; exact ha hv
  | popBack v => obtain rfl := hm; exact ⟨ha hv.1, hc0 hv.1 hv.2⟩
  | popFront v => obtain rfl := hm; exact ⟨ha hv.1, hc0 hv.1 hv.2⟩
  | clear v => obtain rfl := hm; exact ha hv
  | assignN v n a => obtain ⟨x, -, rfl⟩ := hm; exact ⟨ha hv.1, hass hv.1 hv.2⟩
  | assignObjs v ts => obtain ⟨x, -, rfl⟩ := hm; exact ⟨ha hv.1, hass hv.1 hv.2⟩
  | assignRange v t f l =>
    obtain rfl := hm
    obtain ⟨h1, h2, h3, h4⟩ := hv
    exact ⟨ha h1, ha h2, hass h1 h3, hra h2 h4⟩
  | copy d v => obtain rfl := hm; exact ⟨ha hv.1, ha hv.2.1, hass hv.1 hv.2.2.1, hv.2.2.2⟩
  | move v => obtain rfl := hm; exact ha hv
  | moveAssign v t => obtain rfl := hm; exact ⟨ha hv.1, ha hv.2.1, hsame hv.1 hv.2.1 hv.2.2⟩
  | swap v t => obtain rfl := hm; exact ⟨ha hv.1, ha hv.2.1, hsame hv.1 hv.2.1 hv.2.2⟩
  | merge less v t => obtain ⟨lt, -, rfl⟩ := hm; exact ⟨ha hv.1, ha hv.2.1, hsame hv.1 hv.2.1 hv.2.2.1, hv.2.2.2⟩
  | spliceAll v pos t =>
    obtain rfl := hm
    obtain ⟨h1, h2, h3, h4, h5⟩ := hv
    exact ⟨ha h1, ha h2, hsame h1 h2 h3, h4, hpos h1 h5⟩
  | spliceOne v pos t it =>
    obtain rfl := hm
    obtain ⟨h1, h2, h3, h4, h5⟩ := hv
    exact ⟨ha h1, ha h2, hsame h1 h2 h3, hpos h1 h4, hel h2 h5⟩
  | spliceRange v pos t f l =>
    obtain rfl := hm
    obtain ⟨h1, h2, h3, h4⟩ := hv
    refine ⟨ha h1, ha h2, hsame h1 h2 h3, h4.imp ?_ ?_⟩
    · rintro ⟨k1, k2, k3⟩
      exact ⟨k1, hpos h1 k2, hra' h2 k3⟩
    · rintro ⟨k1, X, M, Z, Y, k2, k3⟩
      obtain ⟨k4, k5⟩ := hc h2 k2
      rw [lv_append, lv_append, lv_append] at k4
      have l1 : ∀ x ∈ M ++ (Z ++ Y), E.val s.i x.2 ≠ none := fun x hx => k5 x (List.mem_append.2 (.inr hx))
      have l2 : ∀ x ∈ Z ++ Y, E.val s.i x.2 ≠ none := fun x hx => l1 x (List.mem_append.2 (.inr hx))
      have l3 : ∀ x ∈ Y, E.val s.i x.2 ≠ none := fun x hx => l2 x (List.mem_append.2 (.inr hx))
      have l4 : ∀ x ∈ M, E.val s.i x.2 ≠ none := fun x hx => l1 x (List.mem_append.2 (.inl hx))
      have l5 : ∀ x ∈ Z, E.val s.i x.2 ≠ none := fun x hx => l2 x (List.mem_append.2 (.inl hx))
      have p1 := lv_pos (t := t) l1
      have p2 := lv_pos (t := t) l2
      have p3 := lv_pos (t := t) l3
      rw [lv_append, lv_append] at p1
      rw [lv_append] at p2
      refine ⟨k1, _, _, _, _, k4, k3.imp ?_ ?_⟩
      · rintro ⟨m1, m2, m3, m4⟩
        exact ⟨m1.trans p1.symm, m2.trans p2.symm, m3.trans p3.symm, fun n1 n2 => m4 (fun e => n1 ((lv_nil_iff l4).2 e)) ((lv_nil_iff l5).1 n2)⟩
      · rintro ⟨m1, m2, m3, m4⟩
        exact ⟨m1.trans p1.symm, m2.trans p2.symm, m3.trans p3.symm, fun n1 n2 => m4 (fun e => n1 ((lv_nil_iff l5).2 e)) ((lv_nil_iff l4).1 n2)⟩
  | sort less v =>
    obtain ⟨lt, -, rfl⟩ := hm
    obtain ⟨h1, L, h2, h3⟩ := hv
    obtain ⟨h4, h5⟩ := hc h1 h2
    exact ⟨ha h1, _, h4, by rw [lv_length h5]; exact h3⟩
  | destroy v => obtain rfl := hm; exact ha hv

/-- The sequences of positions and values. -/
def seqs (E : Elem S A X) (i : S) (σ : Sg Ptr) : LC.AState A := LC.abs (lift (E.val i) σ)

/-- The effect of a call. -/
theorem NInv.step (h : NInv E s σ) (he : s.o.err = none) {c : Call S} {c' : LC.Call A} (hv : LC.Valid s.o c.addr)
    (hm : c.Means E (E.val s.i) c') (hmv : ∀ q, c.moves q → (outside E s).1 q = E.val s.i q) :
    ∃ r s' σ', Runs (exec E.toElemOps c) s r s' ∧ NInv E s' σ' ∧ Effect E (outside E s) c s' ∧
      LC.Spec (seqs E s.i σ) c' r s'.o.err.isSome (seqs E s'.i σ') := by
  have hall : ∀ cc, wp (LC.exec c') (oracle (absW E s) cc) (LC.Post (oracle (absW E s) cc) (LC.abs (LO.lift (E.val s.i) σ)) c') := by
    intro cc
    obtain ⟨h1, h2⟩ := h.lift
    have hi : LL.Inv (oracle (absW E s) cc) (LO.lift (E.val s.i) σ) := ⟨h1.st, h1.sp⟩
    exact LC.exec_sim hi h2 he (valid_lift h hv hm hi)
  obtain ⟨r, s', w', h1, h2, h3, h4, h6⟩ := sim_exec hv hm hmv s (absW E s) h.rel ⟨rfl, he, rfl⟩ (fun cc _ => by
    obtain ⟨r, w', h1, -⟩ := (hall cc).runs
    exact ⟨r, w', h1⟩)
  have h7 := h6 w'.env.ctor fun _ _ => rfl
  obtain ⟨B, h9, ⟨τ, h8, h10, rfl⟩, -⟩ := h7.wp (hall _)
  have h8 : LL.Inv w' τ := h8
  obtain ⟨σ', h11, rfl⟩ := NInv.of_rel h2 h8 h10
  refine ⟨r, s', σ', h1, h11, h3, ?_⟩
  have h12 : w'.err.isSome = s'.o.err.isSome := h2.err
  rw [← h12]
  exact h9

end Nestl.LO
