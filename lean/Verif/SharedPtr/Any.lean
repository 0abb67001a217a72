import Verif.SharedPtr.Count
set_option autoImplicit false
/-
Use counts in every execution that returns, also after the defective calls (C52-C56): partial correctness of `release`.
-/
namespace Nestl.SP

/-! ### Partial correctness -/

section pw
variable {σ α β : Type}

/-- If `m` returns, the result satisfies `Q`. -/
def pw (m : M σ α) (s : σ) (Q : α → σ → Prop) : Prop := ∀ a s', Runs m s a s' → Q a s'

theorem runs_bind {m : M σ α} {k : α → M σ β} {s : σ} {b : β} {s'' : σ} :
    Runs (m >>= k) s b s'' ↔ ∃ a s', Runs m s a s' ∧ Runs (k a) s' b s'' := by
  unfold Runs
  have : (m >>= k) s = ((m s : ExceptT Fault Option (α × σ)) >>= fun p => k p.1 p.2) := rfl
  rw [this]
  rcases h : m s with _ | (f | ⟨a, s'⟩)
  · constructor
    · intro h; cases h
    · rintro ⟨_, _, h, _⟩; cases h
  · constructor
    · intro h; cases h
    · rintro ⟨_, _, h, _⟩; cases h
  · constructor
    · intro h; exact ⟨a, s', rfl, h⟩
    · rintro ⟨_, _, h, h'⟩; cases h; exact h'

theorem pw_bind {m : M σ α} {k : α → M σ β} {s : σ} {Q : β → σ → Prop} (h : pw m s fun a s' => pw (k a) s' Q) : pw (m >>= k) s Q := by
  intro b s'' hr
  obtain ⟨a, s', h1, h2⟩ := runs_bind.1 hr
  exact h a s' h1 b s'' h2

theorem pw_pure {a : α} {s : σ} {Q : α → σ → Prop} (h : Q a s) : pw (pure a) s Q := by
  intro b s' hr
  have : some (Except.ok (a, s)) = some (Except.ok (b, s')) := hr
  cases this; exact h

theorem pw_fault {f : Fault} {s : σ} {Q : α → σ → Prop} : pw (fault f) s Q := by
  intro b s' hr
  have : some (Except.error f) = some (Except.ok (b, s')) := hr
  cases this

theorem pw_mono {m : M σ α} {s : σ} {Q Q' : α → σ → Prop} (h : pw m s Q) (hq : ∀ a s', Q a s' → Q' a s') : pw m s Q' :=
  fun a s' hr => hq a s' (h a s' hr)

theorem pw_and {m : M σ α} {s : σ} {Q Q' : α → σ → Prop} (h : pw m s Q) (h' : pw m s Q') : pw m s fun a s' => Q a s' ∧ Q' a s' :=
  fun a s' hr => ⟨h a s' hr, h' a s' hr⟩

theorem pw_assertM {b : Bool} {s : σ} {Q : Unit → σ → Prop} (h : b = true → Q () s) : pw (assertM b) s Q := by
  cases b
  · exact pw_fault
  · exact pw_pure (h rfl)

theorem pw_ite {c : Prop} [Decidable c] {m n : M σ α} {s : σ} {Q : α → σ → Prop} (h : c → pw m s Q) (h' : ¬ c → pw n s Q) :
    pw (if c then m else n) s Q := by
  split
  · exact h ‹_›
  · exact h' ‹_›

theorem pw_of_wp {m : M σ α} {s : σ} {Q : α → σ → Prop} (h : wp m s Q) : pw m s Q := fun _ _ hr => hr.wp h

end pw

variable {V : Type}

section rules
variable {w : W V}

theorem pw_rd {p : Ptr} {Q : Cell V → W V → Prop} (h : ∀ c, w.heap p = some c → p ≠ .null → Q c w) : pw (rd p) w Q := by
  intro a s' hr
  unfold Runs rd at hr
  split at hr
  · cases hr
  · split at hr
    · cases hr; exact h _ ‹_› ‹_›
    · cases hr

theorem pw_modCell {p : Ptr} {f : Cell V → Cell V} {Q : Unit → W V → Prop}
    (h : ∀ c, w.heap p = some c → p ≠ .null → Q () (w.setHeap (upd w.heap p (some (f c))))) : pw (modCell p f) w Q := by
  intro a s' hr
  unfold Runs modCell at hr
  split at hr
  · cases hr
  · split at hr
    · cases hr; exact h _ ‹_› ‹_›
    · cases hr

theorem pw_rdBlk {b : Ptr} {Q : Blk V → W V → Prop} (h : ∀ c, w.heap b = some (.blk c) → b ≠ .null → Q c w) : pw (rdBlk b) w Q := by
  refine pw_bind (pw_rd ?_)
  intro c hc hn
  cases c with
  | blk c => exact pw_pure (h c hc hn)
  | _ => exact pw_fault

theorem pw_setBlk {b : Ptr} {c c' : Blk V} {Q : Unit → W V → Prop} (h : Q () (w.setHeap (upd w.heap b (some (.blk c'))))) :
    pw (setBlk b c') w Q :=
  pw_modCell fun _ _ _ => h

theorem pw_rdObj {b : Ptr} {Q : Obj V → W V → Prop} (h : ∀ c o, w.heap b = some (.blk c) → c.obj = some o → b ≠ .null → Q o w) :
    pw (rdObj b) w Q := by
  refine pw_bind (pw_rdBlk ?_)
  intro c hc hn
  cases ho : c.obj with
  | none => simp only []; exact pw_fault
  | some o => simp only []; exact pw_pure (h c o hc ho hn)

theorem pw_getH {k : Kind} {l : Loc} {Q : Hnd → W V → Prop} (h : ∀ x, At w.heap k l x → Q x w) : pw (getH k l) w Q := by
  cases l with
  | var p =>
    refine pw_bind (pw_rd ?_)
    intro c hc hn
    cases c with
    | var k' x =>
      refine pw_ite (fun e => pw_pure (h x ?_)) (fun _ => pw_fault)
      subst e; exact hc
    | _ => exact pw_fault
  | mem b i =>
    refine pw_bind (pw_rdObj ?_)
    intro c o hc ho hn
    cases hm : o.mem[i]? with
    | none => simp only []; exact pw_fault
    | some m =>
      obtain ⟨k', x⟩ := m
      refine pw_ite (fun e => pw_pure (h x ?_)) (fun _ => pw_fault)
      subst e; exact ⟨c, o, hc, ho, hm⟩

theorem pw_setH {k : Kind} {l : Loc} {y : Hnd} {Q : Unit → W V → Prop}
    (h : ∀ x, At w.heap k l x → Q () (w.setHeap (putH w.heap k l y))) : pw (setH k l y) w Q := by
  refine pw_bind (pw_getH ?_)
  intro x hx
  cases l with
  | var p => exact pw_modCell fun _ _ _ => h x hx
  | mem b i =>
    refine pw_bind (pw_rdBlk ?_)
    intro c hc hn
    refine pw_bind (pw_rdObj ?_)
    intro c' o hc' ho _
    rw [hc] at hc'; cases hc'
    refine pw_modCell fun _ _ _ => ?_
    have := h x hx
    rw [putH_mem hc ho] at this; exact this

theorem pw_destroySelf {b : Ptr} {Q : Unit → W V → Prop} (h : ∀ c, w.heap b = some (.blk c) → Q () (w.setHeap (upd w.heap b none))) :
    pw (destroySelf b) w Q := by
  refine pw_bind (pw_rdBlk ?_)
  intro c hc hn
  refine pw_bind (pw_modCell ?_)
  intro _ _ _
  intro a s' hr
  unfold Runs deallocate freeCell at hr
  cases b with
  | null => exact (hn rfl).elim
  | stk i => cases hr
  | dyn i =>
    simp only [World.setHeap_heap, upd_same] at hr
    split at hr
    · cases hr
    · rename_i heq
      simp only [World.setHeap_setHeap, upd_upd] at hr
      cases hr; exact h c hc

/-- The control block after `weak_release`. -/
def wrel' (c : Blk V) : Option (Cell V) := if c.weak - 1 = 0 ∧ c.use = 0 then none else some (.blk { c with weak := c.weak - 1 })

theorem pw_weakRelease {b : Ptr} {Q : Unit → W V → Prop}
    (h : ∀ c, w.heap b = some (.blk c) → b ≠ .null → Q () (w.setHeap (upd w.heap b (wrel' c)))) : pw (weakRelease b) w Q := by
  refine pw_bind (pw_rdBlk ?_)
  intro c hc hn
  have := h c hc hn
  refine pw_bind (pw_assertM fun _ => ?_)
  refine pw_bind (pw_setBlk (c := c) ?_)
  refine pw_ite (fun e => ?_) (fun e => ?_)
  · refine pw_destroySelf fun _ _ => ?_
    unfold wrel' at this
    rw [if_pos e] at this
    simpa using this
  · refine pw_pure ?_
    unfold wrel' at this
    rwa [if_neg e] at this

theorem pw_takeMem {b : Ptr} {i : Nat} {Q : Kind × Hnd → W V → Prop}
    (h : ∀ c o m, w.heap b = some (.blk c) → c.obj = some o → o.mem[i]? = some m → b ≠ .null →
      Q m (w.setHeap (upd w.heap b (some (.blk { c with obj := some { o with mem := o.mem.take i } }))))) : pw (takeMem b i) w Q := by
  refine pw_bind (pw_rdBlk ?_)
  intro c hc hn
  refine pw_bind (pw_rdObj ?_)
  intro c' o hc' ho _
  rw [hc] at hc'; cases hc'
  cases hm : o.mem[i]? with
  | none => simp only []; exact pw_fault
  | some m =>
    simp only []
    exact pw_bind (pw_setBlk (c := c) (pw_pure (h c o m hc ho hm hn)))

theorem pw_addRef {b : Ptr} {Q : Unit → W V → Prop}
    (h : ∀ c, w.heap b = some (.blk c) → b ≠ .null → Q () (w.setHeap (upd w.heap b (some (.blk { c with use := c.use + 1 }))))) :
    pw (addRef b) w Q := by
  refine pw_bind (pw_rdBlk ?_)
  intro c hc hn
  exact pw_setBlk (c := c) (h c hc hn)

theorem pw_weakAddRef {b : Ptr} {Q : Unit → W V → Prop}
    (h : ∀ c, w.heap b = some (.blk c) → b ≠ .null → Q () (w.setHeap (upd w.heap b (some (.blk { c with weak := c.weak + 1 }))))) :
    pw (weakAddRef b) w Q := by
  refine pw_bind (pw_rdBlk ?_)
  intro c hc hn
  exact pw_setBlk (c := c) (h c hc hn)

theorem pw_dropObj {p : Ptr} {Q : Unit → W V → Prop} (h : Q () (w.setHeap (upd w.heap p none))) : pw (dropObj p) w Q := by
  intro a s' hr
  unfold Runs dropObj at hr
  split at hr
  · cases hr; exact h
  · cases hr

theorem pw_newObj {mk : Ptr → Cell V} {Q : Ptr → W V → Prop}
    (h : Q (.stk w.sp) { w with sp := w.sp + 1, heap := upd w.heap (.stk w.sp) (some (mk (.stk w.sp))) }) : pw (newObj mk) w Q :=
  pw_of_wp h

end rules

/-! ### What `release` can do to the memory at all -/

/-- What happens to a control block: `E` says that the object in it may be under destruction by the call. -/
structure BlkDn (E : Prop) (c c' : Blk V) : Prop where
  use : c'.use ≤ c.use
  val : 0 < c'.use → c'.obj.map (·.val) = c.obj.map (·.val)
  keep : ¬ E → c.use = 0 → c'.obj = c.obj
  mem : ∀ o' : Obj V, c'.obj = some o' → ∃ o : Obj V, c.obj = some o ∧ (∀ (i : Nat) (m : Kind × Hnd), o'.mem[i]? = some m → o.mem[i]? = some m) ∧
    o'.mem.length ≤ o.mem.length

theorem BlkDn.refl (E : Prop) (c : Blk V) : BlkDn E c c :=
  ⟨Nat.le_refl _, fun _ => rfl, fun _ _ => rfl, fun o' h => ⟨o', h, fun _ _ h => h, Nat.le_refl _⟩⟩

theorem BlkDn.trans {E E' : Prop} {c c' c'' : Blk V} (h : BlkDn E c c') (h' : BlkDn E' c' c'') : BlkDn (E ∨ E') c c'' := by
  have := h.use
  have := h'.use
  refine ⟨by omega, fun hu => (h'.val hu).trans (h.val (by omega)), ?_, ?_⟩
  · intro he hu
    exact (h'.keep (fun e => he (.inr e)) (by omega)).trans (h.keep (fun e => he (.inl e)) hu)
  · intro o'' ho
    obtain ⟨o', h1, h2, h3⟩ := h'.mem o'' ho
    obtain ⟨o, h4, h5, h6⟩ := h.mem o' h1
    exact ⟨o, h4, fun i m hm => h5 i m (h2 i m hm), by omega⟩

/-- What a destruction can do to the memory: handles and objects disappear, counts go down; an object disappears only
when its use count is 0; objects that had use count 0 already (they are being destroyed) are not touched, apart from
`E`. -/
structure Dn (E : Ptr → Prop) (h h' : Heap V) : Prop where
  cov : ∀ p, h' p ≠ none → h p ≠ none
  var : ∀ p k x, h' p = some (.var k x) → h p = some (.var k x)
  blk : ∀ b c', h' b = some (.blk c') → ∃ c, h b = some (.blk c) ∧ BlkDn (E b) c c'

theorem Dn.refl (E : Ptr → Prop) (h : Heap V) : Dn E h h :=
  ⟨fun _ h => h, fun _ _ _ h => h, fun b c hc => ⟨c, hc, .refl _ _⟩⟩

theorem Dn.trans {E E' : Ptr → Prop} {h h' h'' : Heap V} (a : Dn E h h') (b : Dn E' h' h'') : Dn (fun p => E p ∨ E' p) h h'' := by
  refine ⟨fun p hp => a.cov p (b.cov p hp), fun p k x hp => a.var p k x (b.var p k x hp), ?_⟩
  intro p c'' hp
  obtain ⟨c', h1, h2⟩ := b.blk p c'' hp
  obtain ⟨c, h3, h4⟩ := a.blk p c' h1
  exact ⟨c, h3, h4.trans h2⟩

theorem Dn.mono {E E' : Ptr → Prop} {h h' : Heap V} (a : Dn E h h') (hE : ∀ p c, h p = some (.blk c) → c.use = 0 → E p → E' p) :
    Dn E' h h' := by
  refine ⟨a.cov, a.var, ?_⟩
  intro p c' hp
  obtain ⟨c, h1, h2⟩ := a.blk p c' hp
  exact ⟨c, h1, h2.use, h2.val, fun he hu => h2.keep (fun e => he (hE p c h1 hu e)) hu, h2.mem⟩

theorem Dn.upd {E : Ptr → Prop} {h : Heap V} {b : Ptr} {c c' : Blk V} (hb : h b = some (.blk c)) (hc : BlkDn (E b) c c') :
    Dn E h (upd h b (some (.blk c'))) := by
  refine ⟨?_, ?_, ?_⟩
  · intro p hp
    by_cases e : p = b
    · subst e; rw [hb]; simp
    · rwa [upd_other _ _ e] at hp
  · intro p k x hp
    by_cases e : p = b
    · subst e; simp at hp
    · rwa [upd_other _ _ e] at hp
  · intro p d hp
    by_cases e : p = b
    · subst e; rw [upd_same] at hp; cases hp; exact ⟨c, hb, hc⟩
    · rw [upd_other _ _ e] at hp; exact ⟨d, hp, .refl _ _⟩

theorem Dn.none {E : Ptr → Prop} {h : Heap V} {b : Ptr} : Dn E h (Nestl.upd h b none) := by
  refine ⟨?_, ?_, ?_⟩
  · intro p hp
    by_cases e : p = b
    · subst e; simp at hp
    · rwa [upd_other _ _ e] at hp
  · intro p k x hp
    by_cases e : p = b
    · subst e; simp at hp
    · rwa [upd_other _ _ e] at hp
  · intro p d hp
    by_cases e : p = b
    · subst e; simp at hp
    · rw [upd_other _ _ e] at hp; exact ⟨d, hp, .refl _ _⟩

theorem Dn.at {E : Ptr → Prop} {h h' : Heap V} (a : Dn E h h') {k : Kind} {l : Loc} {x : Hnd} (hx : At h' k l x) : At h k l x := by
  cases l with
  | var p => exact a.var p k x hx
  | mem b i =>
    obtain ⟨c', o', h1, h2, h3⟩ := hx
    obtain ⟨c, h4, h5⟩ := a.blk b c' h1
    obtain ⟨o, h6, h7, -⟩ := h5.mem o' h2
    exact ⟨c, o, h4, h6, h7 i _ h3⟩

theorem Dn.width {E : Ptr → Prop} {h h' : Heap V} (a : Dn E h h') (p : Ptr) : width (h' p) ≤ width (h p) := by
  cases hp : h' p with
  | none => simp [SP.width]
  | some c =>
    cases c with
    | blk c' =>
      obtain ⟨c, h4, h5⟩ := a.blk p c' hp
      rw [h4]
      cases ho : c'.obj with
      | none => simp [SP.width, ho]
      | some o' =>
        obtain ⟨o, h6, -, h7⟩ := h5.mem o' ho
        simp [SP.width, ho, h6, h7]
    | _ => simp [SP.width]

theorem Dn.msr {E : Ptr → Prop} {h h' : Heap V} (a : Dn E h h') (dom : List Ptr) : msr dom h' ≤ msr dom h := by
  unfold SP.msr
  induction dom with
  | nil => exact Nat.le_refl _
  | cons d ds ih =>
    simp only [List.map_cons, List.sum_cons]
    have := a.width d; omega

/-- The part of the state a destruction does not touch. -/
def OnlyHeap (w w' : W V) : Prop := w' = w.setHeap w'.heap

theorem OnlyHeap.trans {w w' w'' : W V} (h : OnlyHeap w w') (h' : OnlyHeap w' w'') : OnlyHeap w w'' := by
  unfold OnlyHeap at *
  rw [h', h]; rfl

theorem OnlyHeap.set (w : W V) (h : Heap V) : OnlyHeap w (w.setHeap h) := rfl

theorem wrel_dn {E : Ptr → Prop} {h : Heap V} {b : Ptr} {c : Blk V} (hb : h b = some (.blk c)) : Dn E h (upd h b (wrel' c)) := by
  unfold wrel'
  split
  · exact .none
  · exact .upd hb ⟨Nat.le_refl _, fun _ => rfl, fun _ _ => rfl, fun o' h => ⟨o', h, fun _ _ h => h, Nat.le_refl _⟩⟩

theorem msr_take {dom : List Ptr} {h : Heap V} {b : Ptr} {c : Blk V} {o : Obj V} {i : Nat} {m : Kind × Hnd} (hn : dom.Nodup) (hd : b ∈ dom)
    (hb : h b = some (.blk c)) (ho : c.obj = some o) (hm : o.mem[i]? = some m) :
    msr dom (upd h b (some (.blk { c with obj := some { o with mem := o.mem.take i } }))) < msr dom h := by
  have := msr_upd (h := h) hn hd (some (.blk { c with obj := some { o with mem := o.mem.take i } }))
  rw [hb] at this
  simp only [width, ho, List.length_take] at this
  have : i < o.mem.length := by
    apply Classical.byContradiction; intro hh
    rw [List.getElem?_eq_none (by omega)] at hm; cases hm
  omega

theorem take_dn {E : Ptr → Prop} {h : Heap V} {b : Ptr} {c : Blk V} {o : Obj V} {i : Nat} (hE : E b) (hb : h b = some (.blk c)) (ho : c.obj = some o) :
    Dn E h (upd h b (some (.blk { c with obj := some { o with mem := o.mem.take i } }))) := by
  refine .upd hb ⟨Nat.le_refl _, fun _ => by simp [ho], fun he => (he hE).elim, ?_⟩
  intro o' ho'
  cases ho'
  refine ⟨o, ho, ?_, by simp; omega⟩
  intro j m hm
  have hm : (o.mem.take i)[j]? = some m := hm
  rw [List.getElem?_take] at hm
  split at hm
  · exact hm
  · cases hm

/-- Destruction of one member. -/
def dropMem (m : Kind × Hnd) : M (W V) Unit :=
  if m.2.ref = .null then pure () else match m.1 with
    | .sh => release m.2.ref
    | .wk => weakRelease m.2.ref

theorem destroyMembers_succ (b : Ptr) (i : Nat) : destroyMembers (V := V) b (i + 1) = (do
    let m ← takeMem b i
    dropMem m
    destroyMembers b i) := by
  conv => lhs; rw [destroyMembers.eq_def]
  simp only []
  congr 1
  funext m
  unfold dropMem
  by_cases hm : m.2.ref = .null
  · simp [hm]
  · rw [if_neg hm, if_neg hm]
    cases m.1 <;> rfl

/-- `release` and the destruction of the members of an object, if they return. -/
theorem pw_release_dn (n : Nat) : ∀ (w : W V) (dom : List Ptr), dom.Nodup → (∀ p, w.heap p ≠ none → p ∈ dom) → msr dom w.heap ≤ n →
    (∀ b, pw (release b) w fun _ w' => OnlyHeap w w' ∧ Dn (fun _ => False) w.heap w'.heap) ∧
    (∀ b i, pw (destroyMembers b i) w fun _ w' => OnlyHeap w w' ∧ Dn (· = b) w.heap w'.heap) := by
  induction n using Nat.strongRecOn with
  | ind n IH =>
    have mem : ∀ (w : W V) (dom : List Ptr), dom.Nodup → (∀ p, w.heap p ≠ none → p ∈ dom) → msr dom w.heap ≤ n →
        ∀ b i, pw (destroyMembers b i) w fun _ w' => OnlyHeap w w' ∧ Dn (· = b) w.heap w'.heap := by
      intro w dom hn hcov hmsr b i
      cases i with
      | zero => rw [destroyMembers.eq_def]; exact pw_pure ⟨rfl, .refl _ _⟩
      | succ i =>
        rw [destroyMembers_succ]
        refine pw_bind (pw_takeMem ?_)
        intro c o m hb ho hm hbn
        have hd : b ∈ dom := hcov b (by rw [hb]; simp)
        have hlt := msr_take hn hd hb ho hm
        have hdn : Dn (· = b) w.heap _ := take_dn (i := i) rfl hb ho
        generalize hh1 : upd w.heap b (some (.blk { c with obj := some { o with mem := o.mem.take i } })) = h1 at hlt hdn
        obtain ⟨n', hn'⟩ : ∃ n', n' < n ∧ msr dom h1 ≤ n' := ⟨msr dom h1, by omega, Nat.le_refl _⟩
        have hcov1 : ∀ p, h1 p ≠ none → p ∈ dom := fun p hp => hcov p (hdn.cov p hp)
        have ih := IH n' hn'.1 (w.setHeap h1) dom hn hcov1 hn'.2
        have step : pw (dropMem m) (w.setHeap h1) fun _ w' => OnlyHeap (w.setHeap h1) w' ∧ Dn (fun _ => False) h1 w'.heap := by
          refine pw_ite (fun _ => pw_pure ⟨rfl, .refl _ _⟩) (fun _ => ?_)
          split
          · exact ih.1 _
          · refine pw_weakRelease ?_
            intro c' hc' _
            exact ⟨rfl, wrel_dn hc'⟩
        refine pw_bind (pw_mono step ?_)
        rintro _ w2 ⟨e2, d2⟩
        have ih2 := IH n' hn'.1 w2 dom hn (fun p hp => hcov1 p (d2.cov p hp)) (Nat.le_trans (d2.msr dom) hn'.2)
        refine pw_mono (ih2.2 b i) ?_
        rintro _ w3 ⟨e3, d3⟩
        refine ⟨.trans (.trans (.set w h1) e2) e3, (hdn.trans (d2.trans d3)).mono ?_⟩
        rintro p c _ _ (h | h | h)
        · exact h
        · exact h.elim
        · exact h
    intro w dom hn hcov hmsr
    refine ⟨?_, mem w dom hn hcov hmsr⟩
    intro b
    rw [release.eq_def]
    refine pw_bind (pw_rdBlk ?_)
    intro c hb hbn
    refine pw_bind (pw_assertM fun hu => ?_)
    have hu : 0 < c.use := by simpa using hu
    refine pw_bind (pw_setBlk (c := c) ?_)
    have d1 : Dn (fun _ => False) w.heap (upd w.heap b (some (.blk { c with use := c.use - 1 }))) := by
      refine .upd hb ⟨Nat.sub_le _ _, fun _ => rfl, fun _ _ => rfl, fun o' h => ⟨o', h, fun _ _ h => h, Nat.le_refl _⟩⟩
    have hb1 : upd w.heap b (some (.blk { c with use := c.use - 1 })) b = some (.blk { c with use := c.use - 1 }) := upd_same ..
    have hm1 := Nat.le_trans (d1.msr dom) hmsr
    have hcov1 : ∀ p, upd w.heap b (some (.blk { c with use := c.use - 1 })) p ≠ none → p ∈ dom := fun p hp => hcov p (d1.cov p hp)
    generalize upd w.heap b (some (.blk { c with use := c.use - 1 })) = h1 at *
    refine pw_ite (fun hz => ?_) (fun hz => pw_pure ⟨rfl, d1⟩)
    refine pw_bind ?_
    rw [destroyValue.eq_def]
    refine pw_bind (pw_rdObj ?_)
    intro _ o _ _ _
    refine pw_bind (pw_mono (mem (w.setHeap h1) dom hn hcov1 hm1 b _) ?_)
    rintro _ w2 ⟨e2, d2⟩
    refine pw_bind (pw_rdBlk ?_)
    intro c2 hc2 _
    refine pw_setBlk (c := c2) ?_
    have hu2 : c2.use = 0 := by
      obtain ⟨c', f1, f2⟩ := d2.blk b c2 hc2
      have f1 : h1 b = some (.blk c') := f1
      rw [hb1] at f1; cases f1
      have : c2.use ≤ c.use - 1 := f2.use
      omega
    have d3 : Dn (· = b) w2.heap (upd w2.heap b (some (.blk { c2 with obj := none }))) := by
      refine .upd hc2 ⟨Nat.le_refl _, fun h => ?_, fun he => (he rfl).elim, fun o' h => by cases h⟩
      have : 0 < c2.use := h
      omega
    have all : ∀ h', Dn (fun _ => False) (upd w2.heap b (some (.blk { c2 with obj := none }))) h' → Dn (fun _ => False) w.heap h' := by
      intro h' d4
      refine (d1.trans (d2.trans (d3.trans d4))).mono ?_
      rintro p c' hp hc' (h | h | h | h)
      · exact h
      · subst h; rw [hb] at hp; cases hp; omega
      · subst h; rw [hb] at hp; cases hp; omega
      · exact h
    have e3 : OnlyHeap w (w2.setHeap (upd w2.heap b (some (.blk { c2 with obj := none })))) :=
      .trans (.trans (.set w h1) e2) (.set _ _)
    refine pw_bind (pw_rdBlk ?_)
    intro c3 hc3 _
    refine pw_ite (fun hw => ?_) (fun hw => ?_)
    · refine pw_destroySelf fun _ _ => ?_
      exact ⟨.trans e3 (.set _ _), all _ .none⟩
    · exact pw_pure ⟨e3, all _ (.refl _ _)⟩

end Nestl.SP
