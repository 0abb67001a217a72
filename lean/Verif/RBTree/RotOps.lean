import Verif.RBTree.Rot
set_option autoImplicit false
/-
The counted operations compute what the uncounted ones do; complete insertions and erasures.
-/
namespace Nestl.RB
variable {K : Type}

/-- `n` computes what `m` does, without the part of the result that `f` forgets (for the results in `P`). -/
def Sim {σ α β : Type} (P : α → Prop) (m : M σ α) (n : M σ β) (f : α → β) : Prop :=
  ∀ w a w', P a → Runs m w a w' → Runs n w (f a) w'

section
variable {σ α β γ δ : Type} {P : α → Prop} {f : α → β}

theorem Sim.same {m : M σ γ} {k : γ → M σ α} {k' : γ → M σ β} (h : ∀ c, Sim P (k c) (k' c) f) :
    Sim P (m >>= k) (m >>= k') f := by
  intro w a w' hp hr
  obtain ⟨c, w1, h1, h2⟩ := runs_seq_inv hr
  exact runs_seq h1 (h c _ _ _ hp h2)

theorem Sim.bind {m : M σ γ} {n : M σ δ} {g : γ → δ} {k : γ → M σ α} {k' : δ → M σ β} (h0 : Sim (fun _ => True) m n g)
    (h : ∀ c, Sim P (k c) (k' (g c)) f) : Sim P (m >>= k) (n >>= k') f := by
  intro w a w' hp hr
  obtain ⟨c, w1, h1, h2⟩ := runs_seq_inv hr
  exact runs_seq (h0 _ _ _ trivial h1) (h c _ _ _ hp h2)

theorem Sim.pure {a : α} {b : β} (h : f a = b) : Sim P (pure a : M σ α) (pure b) f := by
  intro w a' w' _ hr
  cases hr
  subst h
  rfl

theorem Sim.ite {c : Prop} [Decidable c] {m m' : M σ α} {n n' : M σ β} (h1 : c → Sim P m n f) (h2 : ¬ c → Sim P m' n' f) :
    Sim P (if c then m else m') (if c then n else n') f := by
  split
  · exact h1 ‹_›
  · exact h2 ‹_›

theorem Sim.last {m : M σ γ} {n : M σ β} {g : γ → α} {P' : γ → Prop} {f' : γ → β} (h : Sim P' m n f') (hp : ∀ c, P (g c) → P' c)
    (hf : ∀ c, f (g c) = f' c) : Sim P (m >>= fun c => Pure.pure (g c)) n f := by
  intro w a w' hpa hr
  obtain ⟨c, w1, h1, h2⟩ := runs_seq_inv hr
  cases h2
  rw [hf]
  exact h _ _ _ (hp c hpa) h1

end

theorem insFixN_sim (hdr : Ptr) (i : Nat) : ∀ x, Sim (fun a : Nat × Nat => a.2 = i) (insFixN hdr x : M (W K) _) (insFix hdr x) fun _ => () := by
  induction i using Nat.strongRecOn with
  | _ i ih =>
    intro x
    have hrec : ∀ c y, Sim (fun a : Nat × Nat => a.2 = i) (do let r ← insFixN hdr y; pure (r.1 + c, r.2 + 1) : M (W K) _) (insFix hdr y) fun _ => () := by
      intro c y w a w' hp hr
      obtain ⟨b, w1, h1, h2⟩ := runs_seq_inv hr
      cases h2
      exact ih b.2 (by simp only at hp; omega) y _ _ _ rfl h1
    have body : ∀ s xpp, Sim (fun a : Nat × Nat => a.2 = i) (insBodyN s hdr x xpp (insFixN hdr) : M (W K) _) (insBody s hdr x xpp (insFix hdr)) fun _ => () := by
      intro s xpp
      unfold insBodyN insBody
      refine .same fun a => .same fun b => .ite (fun _ => ?_) (fun _ => ?_)
      · exact .same fun _ => .same fun _ => .same fun _ => .same fun _ => hrec 0 xpp
      · refine .same fun _ => .same fun _ => .ite (fun _ => ?_) (fun _ => ?_)
        · exact .same fun _ => .same fun _ => .same fun _ => .same fun _ => .same fun _ => .same fun _ => hrec 2 _
        · exact .same fun _ => .same fun _ => .same fun _ => .same fun _ => hrec 1 _
    rw [insFixN_eq, insFix_eq]
    refine .same fun _ => .ite (fun _ => .pure rfl) fun _ => .same fun _ => .same fun _ => .ite (fun _ => ?_) fun _ => .pure rfl
    exact .same fun _ => .same fun _ => .ite (fun _ => body _ _) fun _ => body _ _

theorem eraseFixN_sim (hdr : Ptr) (i : Nat) : ∀ x xp, Sim (fun a : Ptr × Nat × Nat => a.2.2 = i) (eraseFixN hdr x xp : M (W K) _) (eraseFix hdr x xp) Prod.fst := by
  induction i using Nat.strongRecOn with
  | _ i ih =>
    intro x xp
    have hrec : ∀ c y yp, Sim (fun a : Ptr × Nat × Nat => a.2.2 = i) (do let r ← eraseFixN hdr y yp; pure (r.1, r.2.1 + c, r.2.2 + 1) : M (W K) _) (eraseFix hdr y yp) Prod.fst := by
      intro c y yp w a w' hp hr
      obtain ⟨b, w1, h1, h2⟩ := runs_seq_inv hr
      cases h2
      exact ih b.2.2 (by simp only at hp; omega) y yp _ b _ rfl h1
    have fin : ∀ s w q, Sim (fun a : Ptr × Nat × Nat => a.2.2 = i) (eraFinishN s hdr x xp w q : M (W K) _) (eraFinish s hdr x xp w) Prod.fst := by
      intro s w q
      unfold eraFinishN eraFinish
      exact .same fun _ => .same fun _ => .same fun _ => .same fun _ => .ite (fun _ => .same fun _ => .same fun _ => .same fun _ => .pure rfl) (fun _ => .same fun _ => .pure rfl)
    have rest : ∀ s w c, Sim (fun a : Ptr × Nat × Nat => a.2.2 = i) (eraRestN s hdr x xp w c (eraseFixN hdr) : M (W K) _) (eraRest s hdr x xp w (eraseFix hdr)) Prod.fst := by
      intro s w c
      unfold eraRestN eraRest
      refine .same fun _ => .same fun _ => .same fun _ => .ite (fun _ => ?_) (fun _ => ?_)
      · exact .same fun _ => .same fun _ => hrec _ _ _
      · refine .same fun _ => .same fun _ => .bind (g := Prod.fst) (.ite (fun _ => ?_) (fun _ => .pure rfl)) fun _ => fin _ _ _
        exact .same fun _ => .same fun _ => .same fun _ => .same fun _ => .same fun _ => .pure rfl
    have body : ∀ s, Sim (fun a : Ptr × Nat × Nat => a.2.2 = i) (eraBodyN s hdr x xp (eraseFixN hdr) : M (W K) _) (eraBody s hdr x xp (eraseFix hdr)) Prod.fst := by
      intro s
      unfold eraBodyN eraBody
      refine .same fun _ => .same fun _ => .bind (g := Prod.fst) (.ite (fun _ => ?_) (fun _ => .pure rfl)) fun _ => rest _ _ _
      exact .same fun _ => .same fun _ => .same fun _ => .same fun _ => .pure rfl
    rw [eraseFixN_eq, eraseFix_eq]
    exact .same fun _ => .ite (fun _ => .pure rfl) fun _ => .same fun _ => .ite (fun _ => .same fun _ => .ite (fun _ => body _) fun _ => body _) fun _ => .pure rfl

theorem insertAndRebalanceN_sim {b : Bool} {x p hdr : Ptr} :
    Sim (fun _ => True) (insertAndRebalanceN b x p hdr : M (W K) _) (insertAndRebalance b x p hdr) fun _ => () := by
  unfold insertAndRebalanceN insertAndRebalance
  refine .same fun _ => .bind (g := fun _ => ()) (fun w a w' _ h => insFixN_sim hdr a.2 x w a w' rfl h) fun c => .same fun d => ?_
  intro w a w' _ hr
  obtain ⟨e, w1, h1, h2⟩ := runs_seq_inv hr
  cases h2
  exact h1

theorem insertUniqueN_sim {lt : K → K → Bool} {hdr : Ptr} {v : K} :
    Sim (fun _ => True) (insertUniqueN lt hdr v : M (W K) _) (insertUnique lt hdr v) Prod.fst := by
  unfold insertUniqueN insertUnique insertN_ insert_
  refine .same fun _ => .ite (fun _ => .bind (g := Prod.fst) ?_ fun _ => .pure rfl) fun _ => .pure rfl
  refine .same fun _ => .same fun _ => .same fun _ => .ite (fun _ => .pure rfl) fun _ => ?_
  exact .bind (g := fun _ => ()) insertAndRebalanceN_sim fun _ => .same fun _ => .pure rfl

theorem eraseIterN_sim {hdr z : Ptr} : Sim (fun _ => True) (eraseIterN hdr z : M (W K) _) (eraseIter hdr z) Prod.fst := by
  unfold eraseIterN eraseIter eraseAuxN eraseAux rebalanceForEraseN rebalanceForErase
  refine .same fun _ => .bind (g := fun _ => ()) (.bind (g := Prod.fst) ?_ fun _ => .same fun _ => ?_) fun _ => .pure rfl
  · refine .same fun _ => .same fun _ => .ite (fun _ => ?_) fun _ => .pure rfl
    refine .bind (g := Prod.fst) (fun w a w' _ h => eraseFixN_sim hdr a.2.2 _ _ w a w' rfl h) fun _ => ?_
    exact .ite (fun _ => .same fun _ => .pure rfl) fun _ => .pure rfl
  · intro w a w' _ hr
    obtain ⟨e, w1, h1, h2⟩ := runs_seq_inv hr
    cases h2
    exact h1

/-- The nodes around a hole: at least exponentially many in half its depth. -/
theorem CRB_size {ctx : Ctx K} {m : Nat} (h : CRB ctx m) : 2 ^ (m + (ctx.length + 1) / 2) ≤ (pre ctx ++ post ctx).length + 2 ^ m := by
  induction hn : ctx.length using Nat.strongRecOn generalizing ctx m with
  | _ n ih =>
    subst hn
    have len : ∀ (f : Frame K) fs, (pre (f :: fs) ++ post (f :: fs)).length = f.sib.nodes.length + 1 + (pre fs ++ post fs).length := by
      intro f fs
      rcases (show f.s = .L ∨ f.s = .R by cases f.s <;> simp) with hs | hs <;> simp [pre, post, hs] <;> omega
    have black : ∀ (f : Frame K) fs m, f.c = .black → CRB (f :: fs) m → fs.length < ctx.length →
        2 ^ (m + 1 + (fs.length + 1) / 2) ≤ (pre (f :: fs) ++ post (f :: fs)).length + 2 ^ m := by
      intro f fs m hf hc hl
      rcases f with ⟨s, p, c, k, sib⟩
      simp only at hf
      subst hf
      obtain ⟨h1, h2⟩ := hc
      have := RB_size h1
      have := ih _ hl h2 rfl
      rw [len]
      rw [Nat.pow_succ 2 m] at this
      simp only at *
      omega
    cases ctx with
    | nil => simp [pre, post]
    | cons f fs =>
      rcases (show f.c = .red ∨ f.c = .black by cases f.c <;> simp) with hf | hf
      · have hfc := hf
        rcases f with ⟨s, p, c, k, sib⟩
        simp only at hf
        subst hf
        obtain ⟨h1, h2, h3, h4⟩ := h
        cases fs with
        | nil => exact absurd h3 (by simp [topBlack])
        | cons g gs =>
          have := black g gs m h3 h4 (by simp; omega)
          rw [len]
          have e : m + (gs.length + 1 + 1 + 1) / 2 = m + 1 + (gs.length + 1) / 2 := by omega
          simp only [List.length_cons]
          rw [e]
          omega
      · have := black f fs m hf h (by simp)
        refine Nat.le_trans (Nat.pow_le_pow_right (by omega) ?_) this
        simp only [List.length_cons]
        omega

section
variable {hdr : Ptr} {w : W K} {ctx : Ctx K} {t l r : T K} {o : Nat} {lt : K → K → Bool} {k : K}

/-- Rotations and passes of an insertion into the hole `ctx`. -/
theorem wp_insertAndRebalanceN {i : Nat} {nx : TNode K} {Q : Nat × Nat → W K → Prop}
    (h : Tree w.heap hdr o (plug ctx .nil)) (H1 : Ptr → Option (TNode K)) (hx : H1 = upd w.heap (.dyn i) (some nx))
    (hxn : w.heap (.dyn i) = none) (hv : nx.val = some k) (ho : nx.owner = o) (hcnt : nx.count = 0)
    (hQ : ∀ a H' t', Tree (upd H' hdr (some (hdCell ⟨firstP hdr t'.nodes, lastP hdr t'.nodes, o, t'.nodes.length⟩ t'.ptr))) hdr o t' →
      H' hdr = some (hdCell ⟨firstP hdr t'.nodes, lastP hdr t'.nodes, o, (pre ctx ++ post ctx).length⟩ t'.ptr) →
      t'.nodes = pre ctx ++ (.dyn i, k) :: post ctx → a.1 ≤ 2 → a.2 ≤ Nat.log2 ((plug ctx (T.nil : T K)).nodes.length + 1) →
      a.2 + phi t' ≤ phi (plug ctx (T.nil : T K)) + 7 → Q a (w.setHeap H')) :
    wp (insertAndRebalanceN (isL ctx) (.dyn i) (par hdr ctx) hdr) (w.setHeap H1) Q := by
  subst hx
  have hz0 := h.toZ
  have hdisj : Ptr.dyn i ∉ (plug ctx (T.nil : T K)).ptrs := by
    intro hm
    obtain ⟨n, hn, -⟩ := Rep_alloc h.rep _ hm
    rw [hxn] at hn; cases hn
  have hih : Ptr.dyn i ≠ hdr := by obtain ⟨j, rfl⟩ := h.ok.hdr; simp
  have hxc : Ptr.dyn i ∉ ctxPtrs ctx := fun hm => hdisj (mem_plug_ptrs.2 (Or.inl hm))
  have hnod : (plug ctx (T.nil : T K)).nodes = pre ctx ++ post ctx := by simp [plug_nodes, T.nodes]
  rw [hnod] at hz0 hQ
  have hz1 : Z (upd w.heap (.dyn i) (some nx)) hdr _ ctx .nil (upd w.heap (.dyn i) (some nx)) :=
    ⟨CtxRep_upd hz0.crep hih hxc, trivial, hz0.ok, fun _ _ _ => rfl⟩
  unfold insertAndRebalanceN
  rw [wp_bind]
  refine wp_insLink (w := w.setHeap _) (by exact hz1) (by exact upd_same _ _ _) hv ho hcnt hxc rfl rfl ?_
  intro H2 hz2
  obtain ⟨n, hr1⟩ := h.rb
  obtain ⟨n, hc, hn0, -⟩ := RB_unplug hr1 h.black
  simp only [RB] at hn0
  subst hn0
  simp only [World.setHeap_setHeap, wp_bind]
  have := wp_insFixN (H0 := upd w.heap (.dyn i) (some nx)) ctx.length (w := w.setHeap H2)
    (Q := fun b s' => wp (rd hdr) s' fun a s' => wp (setColor a.parent Color.black) s' fun _ s' => wp (pure b) s' Q)
    (Nat.le_refl _) (by exact hz2) (by simp) (n := 0) (t := mk .L (.dyn i) .red .nil k .nil) (by simp [RB_red, RB, T.color]) hc ?_
  · simpa using this
  · intro a H3 t3 ha1 ha2 _ hph hz3 hn3 hal
    obtain ⟨p, c, l, k', r, m, rfl, hrb⟩ := hal
    rw [wp_rd (by exact hz3.hdrCell) hz3.hdr_ne]
    simp only [hdCell, plug, T.ptr, World.setHeap_setHeap]
    refine wp_setColor_focus (s := .L) (a := l) (k := k') (b := r) (c := c) (by exact hz3) ?_
    intro H4 hz4
    have hn4 : (mk .L p .black l k' r).nodes = pre ctx ++ (.dyn i, k) :: post ctx := by
      have : (mk .L p .black l k' r).nodes = (T.node p c l k' r).nodes := rfl
      rw [this, hn3, plug_nodes]; simp [mk, T.nodes]
    refine hQ a H4 (mk .L p .black l k' r) ?_ ?_ hn4 ha1 ?_ ?_
    · refine ⟨upd_same _ _ _, Rep_upd hz4.rep ?_, hz4.ok, ⟨_, hrb⟩, by simp⟩
      intro hm; exact hz4.ne_hdr (by exact hm) rfl
    · rw [hz4.hdrCell, hn4]; rfl
    rotate_left
    · have h1 := phi_blacken (T.node p c l k' r)
      have h2 := cphi_le ctx .red .black
      have h3 : phi (plug ctx (mk .L (.dyn i) .red .nil k .nil)) = cphi ctx .red := by
        rw [phi_plug, phi_mk, mk_color, fw_red]; simp [phi]
      have h4 : phi (plug ctx (T.nil : T K)) = cphi ctx .black := by rw [phi_plug]; simp [phi, T.color]
      rw [h3] at hph
      rw [h4]
      change a.2 + phi (T.node p c l k' r).blacken ≤ _
      omega
    have hs := CRB_size hc
    rw [Nat.le_log2 (by omega)]
    refine Nat.le_trans (Nat.pow_le_pow_right (by omega) ?_) (by simpa using hs)
    omega

theorem wp_insertN_ {Q : Ptr × Nat × Nat → W K → Prop} (h : Tree w.heap hdr o (plug ctx .nil)) (hp : Path lt k ctx)
    (herr : w.err = none)
    (hQ : ∀ a w' t', Tree w'.heap hdr o t' → a.2.1 ≤ 2 → a.2.2 ≤ Nat.log2 ((plug ctx (T.nil : T K)).nodes.length + 1) →
      a.2.2 + phi t' ≤ phi (plug ctx (T.nil : T K)) + 7 → Q a w') :
    wp (insertN_ lt hdr .null (par hdr ctx) k) w Q := by
  have main : ∀ n, n ≤ 1 → wp (do
      let l ← createNode hdr k
      if (← hasErr) then pure (hdr, 0, 0) else do
      let r ← insertAndRebalanceN (isL ctx) l (par hdr ctx) hdr
      setCount hdr (· + 1)
      pure (l, r)) (w.addCmp n) Q := by
    intro n hn
    rw [wp_bind]
    refine wp_createNode (w := w.addCmp n) (by exact h.cell) h.ok.hdr herr ?_ ?_
    · intro w' e hrf he hc hh hw
      simp only [wp_bind, wp_hasErr, hw, Option.isSome_some, if_true, wp_pure]
      exact hQ _ w' _ (by rw [hh]; exact h) (by simp) (by simp) (by simp only; omega)
    · intro a c w' hnr ha he hc hh hv ho hcnt hw
      simp only [wp_bind, wp_hasErr, hw, Option.isSome_none, Bool.false_eq_true, if_false, wp_ite]
      have hw' : w' = (w'.setHeap w.heap).setHeap w'.heap := rfl
      rw [hw']
      refine wp_insertAndRebalanceN (o := o) (w := w'.setHeap w.heap) (ctx := ctx) (by exact h) _ hh ha.none hv ho hcnt ?_
      intro b H' t' ht' hcell hnod h1 h2 h3
      have hlen : (pre ctx ++ post ctx).length + 1 = t'.nodes.length := by rw [hnod]; simp; omega
      unfold setCount
      rw [wp_modCell (by exact hcell) h.hdr_ne]
      refine hQ _ _ t' ?_ h1 h2 h3
      simp only [World.setHeap_heap]
      have : ({ hdCell ⟨firstP hdr t'.nodes, lastP hdr t'.nodes, o, (pre ctx ++ post ctx).length⟩ t'.ptr with count := (pre ctx ++ post ctx).length + 1 } : TNode K)
          = hdCell ⟨firstP hdr t'.nodes, lastP hdr t'.nodes, o, t'.nodes.length⟩ t'.ptr := by rw [← hlen]; rfl
      simp only [hdCell] at this ⊢
      rw [this]
      exact ht'
  unfold insertN_
  rw [wp_bind]
  simp only [ne_eq, not_true, if_false]
  cases ctx with
  | nil =>
    simp only [par_nil, if_true, wp_pure]
    exact main 0 (by omega)
  | cons f fs =>
    have hne : ¬ f.p = hdr := h.toZ.par_ne_hdr
    have hc := h.toZ.parCell
    simp only [par_cons, hne, if_false, wp_bind]
    rw [wp_keyOf hc h.toZ.par_ne_null (cellS_val ..), wp_cmp]
    have hlt : lt k f.k = isL (f :: fs) := hp f (by simp)
    rw [hlt]
    have := main 1 (by omega)
    simp only [wp_bind] at this
    exact this

theorem wp_insertUniqueN {Q : (Ptr × Bool) × Nat × Nat → W K → Prop} (h : Tree w.heap hdr o t) (herr : w.err = none)
    (hQ : ∀ a w' t', Tree w'.heap hdr o t' → a.2.1 ≤ 2 → a.2.2 ≤ Nat.log2 (t.nodes.length + 1) →
      a.2.2 + phi t' ≤ phi t + 7 → Q a w') : wp (insertUniqueN lt hdr k) w Q := by
  unfold insertUniqueN
  rw [wp_bind]
  refine wp_getInsertUniquePos h ?_ ?_
  · intro ctx n hpl hpath hn hlast
    have hpn : par hdr ctx ≠ .null := by
      cases ctx with
      | nil => exact h.hdr_ne
      | cons f fs => rw [← hpl] at h; exact h.toZ.par_ne_null
    simp only [ne_eq, hpn, not_false_eq_true, if_true, wp_bind, wp_pure, wp_ite]
    refine wp_insertN_ (w := w.addCmp n) (o := o) (by rw [hpl]; exact h) hpath herr ?_
    intro a w' t' ht' h1 h2 h3
    rw [hpl] at h2 h3
    exact hQ _ _ t' ht' h1 h2 h3
  · intro ctx n A p k' hpl hpath hn hA hlt
    simp only [ne_eq, not_true, if_false, wp_pure]
    exact hQ _ _ t h (by simp) (by simp) (by simp only; omega)

/-- The unlinking phase of erase, with the potential. -/
theorem wp_eraseUnlinkN {z : Ptr} {zc : Color} {Q : Ptr × Ptr → W K → Prop}
    (h : Tree w.heap hdr o (plug ctx (.node z zc l k r)))
    (hQ : ∀ H' nz ctx' x, nz.val = some k → nz.owner = o →
      (plug ctx' x).nodes = (pre ctx ++ l.nodes) ++ (r.nodes ++ post ctx) →
      (nz.color = .red → ∃ m, RB (plug ctx' x) m ∧ (plug ctx' x).color = .black) →
      (nz.color = .black → Short ctx' x) →
      Z (upd w.heap z (some nz)) hdr ⟨firstP hdr (plug ctx' x).nodes, lastP hdr (plug ctx' x).nodes, o,
        (plug ctx (.node z zc l k r)).nodes.length⟩ ctx' x H' →
      phi (plug ctx' x) ≤ phi (plug ctx (.node z zc l k r)) + 2 →
      Q (x.ptr, par hdr ctx') (w.setHeap H')) :
    wp (eraseUnlink z hdr) w Q := by
  have hZ := h.toZ
  have hz := hZ.focus (s := .L)
  have hzn := hZ.focus_ne_null (s := .L)
  obtain ⟨m, hrb⟩ := h.rb
  have hlp : l ≠ .nil → l.ptr ≠ .null := fun hl e => hZ.ne_null (p := .null)
    (mem_plug_ptrs.2 (Or.inr (by rw [ptrs_mk_L, mem_ptrs_mk]; exact Or.inr (Or.inl (e ▸ ptr_mem_ptrs hl))))) rfl
  have hrp : r ≠ .nil → r.ptr ≠ .null := fun hl e => hZ.ne_null (p := .null)
    (mem_plug_ptrs.2 (Or.inr (by rw [ptrs_mk_L, mem_ptrs_mk]; exact Or.inr (Or.inr (e ▸ ptr_mem_ptrs hl))))) rfl
  unfold eraseUnlink
  simp only [wp_bind]
  rw [wp_rd hz hzn]
  simp only [cellS]
  by_cases hl : l = .nil
  · subst hl
    refine wp_if_pos rfl ?_
    rw [wp_pure]
    refine wp_if_neg (by simp) ?_
    refine wp_unlink1 (s := .L) hZ rfl rfl ?_
    intro H' hz'
    obtain ⟨n, hc, hr, -⟩ := RB_unplug hrb h.black
    have hrm := remove_RB (s := .L) hc hr
    exact hQ H' (cellS .L zc (par hdr ctx) .null r.ptr k o) ctx r (cellS_val ..) (cellS_owner ..) (by rw [plug_nodes]; simp [T.nodes]) (fun e => hrm.1 (by simpa using e)) (fun e => hrm.2 (by simpa using e)) hz' (phi_remove (s := .L))
  · refine wp_if_neg (hlp hl) ?_
    by_cases hr : r = .nil
    · subst hr
      refine wp_if_pos rfl ?_
      rw [wp_pure]
      refine wp_if_neg (by simp) ?_
      refine wp_unlink1 (s := .R) (x := l) hZ rfl rfl ?_
      intro H' hz'
      obtain ⟨n, hc, hr, -⟩ := RB_unplug hrb h.black
      have hrm := remove_RB (s := .R) (p := z) (k := k) (x := l) hc hr
      refine hQ H' (cellS .R zc (par hdr ctx) .null l.ptr k o) ctx l (cellS_val ..) (cellS_owner ..) (by rw [plug_nodes]; simp [T.nodes]) (fun e => hrm.1 (by simpa using e)) (fun e => hrm.2 (by simpa using e)) hz' (phi_remove (s := .R))
    · refine wp_if_neg (hrp hr) ?_
      obtain ⟨rc, y, yc, ky, yr, rfl, hpre, hfirst⟩ := exists_min hr
      simp only [wp_bind]
      have hrr := (Rep_mk (s := .L)).1 hZ.rep
      have hr0 : Ptr.null ∉ (plug rc (T.node y yc .nil ky yr)).ptrs := fun hh => hZ.ne_null (p := .null)
        (mem_plug_ptrs.2 (Or.inr (by rw [ptrs_mk_L, mem_ptrs_mk]; exact Or.inr (Or.inr hh)))) rfl
      refine wp_minLoop hrr.2.2 hr hr0 hdr ?_
      rw [hfirst]
      have hymem : y ∈ (plug rc (T.node y yc .nil ky yr)).ptrs := by
        rw [mem_plug_ptrs, ptrs_mk_L, mem_ptrs_mk]; simp
      have hyn : y ≠ .null := fun e => hr0 (e ▸ hymem)
      have hyz : y ≠ z := by
        rintro rfl
        exact ((nodup_ptrs_mk (s := .L)).1 (nodup_plug_ptrs.1 hZ.ok.nodup).2.1).2.1 hymem
      have hy := ((Rep_mk (s := .L)).1 (Seg_iff.1 hrr.2.2).2).1
      rw [wp_rd hy hyn, wp_pure]
      refine wp_if_pos hyz ?_
      refine wp_unlink2 hZ hl hpre ?_
      intro H' nz hnc hnv hno hz'
      -- nodes
      have hnod : (plug (rc ++ ⟨.R, y, zc, ky, l⟩ :: ctx) yr).nodes
          = (pre ctx ++ l.nodes) ++ ((plug rc (T.node y yc .nil ky yr)).nodes ++ post ctx) := by
        rw [plug_append, plug, plug_nodes, plug_nodes]
        simp only [mk, T.nodes, plug_nodes, hpre]
        simp
      have hnod0 : (plug ctx (T.node z zc l k (plug rc (T.node y yc .nil ky yr)))).nodes
          = (pre ctx ++ l.nodes) ++ (z, k) :: ((plug rc (T.node y yc .nil ky yr)).nodes ++ post ctx) := by
        rw [plug_nodes]; simp [T.nodes]
      have hln := nodes_ne_nil hl
      have hrn := nodes_ne_nil hr
      have hf : firstP hdr (plug (rc ++ ⟨.R, y, zc, ky, l⟩ :: ctx) yr).nodes
          = firstP hdr (plug ctx (T.node z zc l k (plug rc (T.node y yc .nil ky yr)))).nodes := by
        rw [hnod, hnod0]
        cases hp : pre ctx ++ l.nodes with
        | nil => simp at hp; exact absurd hp.2 hln
        | cons a L => simp
      have hla : lastP hdr (plug (rc ++ ⟨.R, y, zc, ky, l⟩ :: ctx) yr).nodes
          = lastP hdr (plug ctx (T.node z zc l k (plug rc (T.node y yc .nil ky yr)))).nodes := by
        rw [hnod, hnod0]
        rcases List.eq_nil_or_concat ((plug rc (T.node y yc .nil ky yr)).nodes ++ post ctx) with hp | ⟨A, a, hp⟩
        · simp at hp; exact absurd hp.1 hrn
        · rw [hp, List.concat_eq_append, lastP_append, lastP_append,
            ← List.cons_append, lastP_append, lastP_append]
          simp [lastP]
      have hzl : (plug ctx (T.node z zc l k (plug rc (T.node y yc .nil ky yr)))) =
          plug (rc ++ ⟨.R, z, zc, k, l⟩ :: ctx) (T.node y yc .nil ky yr) := by
        rw [plug_append]; rfl
      have hb := h.black
      rw [hzl] at hrb hb
      obtain ⟨n, hc, hrr', -⟩ := RB_unplug hrb hb
      replace hc := (CRB_append (c1 := rc) (c2 := ctx) (n := n) (f := ⟨.R, z, zc, k, l⟩) (g := ⟨.R, y, zc, ky, l⟩) rfl rfl).1 hc
      have hrm := remove_RB (s := .L) hc hrr'
      have hpa : par y rc = par hdr (rc ++ ⟨.R, y, zc, ky, l⟩ :: ctx) := by rw [par_append]
      rw [hpa]
      refine hQ H' nz _ yr hnv hno hnod (hnc ▸ hrm.1) (hnc ▸ hrm.2) ?_ ?_
      · rw [hf, hla]
        exact hz'
      · rw [hzl]
        have := phi_remove (C := rc ++ ⟨.R, z, zc, k, l⟩ :: ctx) (s := .L) (p := y) (c := yc) (k := ky) (x := yr)
        rw [phi_plug, cphi_append (f := ⟨.R, z, zc, k, l⟩) (g := ⟨.R, y, zc, ky, l⟩) rfl rfl, ← phi_plug] at this
        exact this

/-- Rotations and passes of an erasure. -/
theorem wp_rebalanceForEraseN {z : Ptr} {zc : Color} {Q : Ptr × Nat × Nat → W K → Prop}
    (h : Tree w.heap hdr o (plug ctx (.node z zc l k r)))
    (hQ : ∀ a H' nz t', a.1 = z → a.2.1 ≤ 3 → a.2.2 ≤ 2 * Nat.log2 (plug ctx (.node z zc l k r)).nodes.length →
      nz.val = some k → nz.owner = o → t'.nodes = (pre ctx ++ l.nodes) ++ (r.nodes ++ post ctx) →
      (∃ m, RB t' m) → t'.color = .black →
      Z (upd w.heap z (some nz)) hdr ⟨firstP hdr t'.nodes, lastP hdr t'.nodes, o,
        (plug ctx (.node z zc l k r)).nodes.length⟩ [] t' H' →
      a.2.2 + phi t' ≤ phi (plug ctx (.node z zc l k r)) + 12 → Q a (w.setHeap H')) :
    wp (rebalanceForEraseN z hdr) w Q := by
  have hZ := h.toZ
  have hzn := hZ.focus_ne_null (s := .L)
  have hzh := hZ.focus_ne_hdr (s := .L)
  have hnod0 : (plug ctx (T.node z zc l k r)).nodes = (pre ctx ++ l.nodes) ++ (z, k) :: (r.nodes ++ post ctx) := by
    rw [plug_nodes]; simp [T.nodes]
  have hnd : z ∉ ((pre ctx ++ l.nodes) ++ (r.nodes ++ post ctx)).map Prod.fst := by
    have hnd := h.ok.nodup
    rw [T.ptrs, hnod0] at hnd
    simp only [List.map_append, List.map_cons, List.nodup_append, List.nodup_cons, List.mem_append, List.mem_cons] at hnd ⊢
    grind
  unfold rebalanceForEraseN
  rw [wp_bind]
  refine wp_eraseUnlinkN h ?_
  intro H1 nz ctx' x hnv hno hnod hred hblk hz1 hph
  simp only [wp_bind]
  have hzcell : H1 z = some nz := by
    rw [hz1.frame z hzh (by rw [T.ptrs, hnod]; exact hnd), upd_same]
  rw [wp_rd (by exact hzcell) hzn]
  cases hcol : nz.color with
  | red =>
    refine wp_if_neg (by simp) ?_
    rw [wp_pure]
    obtain ⟨m, h1, h2⟩ := hred hcol
    exact hQ _ H1 nz (plug ctx' x) rfl (by simp) (by simp) hnv hno hnod ⟨m, h1⟩ h2 hz1.toPlug (by simp only; omega)
  | black =>
    refine wp_if_pos (by simp) ?_
    rw [wp_bind]
    have hlog : ctx'.length ≤ 2 * Nat.log2 (plug ctx (T.node z zc l k r)).nodes.length := by
      obtain ⟨n, -, hc⟩ := hblk hcol
      have hs := CRB_size hc
      have hlen : (plug ctx (T.node z zc l k r)).nodes.length = (plug ctx' x).nodes.length + 1 := by
        rw [hnod, hnod0]; simp; omega
      rw [plug_nodes ctx'] at hlen
      simp only [List.length_append] at hlen hs
      by_cases h0 : ctx'.length = 0
      · omega
      have hq : ∃ q, (ctx'.length + 1) / 2 = q + 1 := ⟨(ctx'.length + 1) / 2 - 1, by omega⟩
      obtain ⟨q, hq⟩ := hq
      have e1 : 2 ^ (n + 1 + (q + 1)) = 2 * 2 ^ (n + (q + 1)) := by
        rw [show n + 1 + (q + 1) = (n + (q + 1)) + 1 by omega, Nat.pow_succ]; omega
      have e2 : 2 ^ (n + 1) ≤ 2 ^ (n + (q + 1)) := Nat.pow_le_pow_right (by omega) (by omega)
      have e3 : 2 ^ (q + 1) ≤ 2 ^ (n + (q + 1)) := Nat.pow_le_pow_right (by omega) (by omega)
      rw [hq, e1] at hs
      have : q + 1 ≤ Nat.log2 (plug ctx (T.node z zc l k r)).nodes.length := by
        rw [Nat.le_log2 (by omega)]
        omega
      omega
    refine wp_eraseFixN ctx'.length (Nat.le_refl _) (by exact hz1) (hblk hcol) ?_
    intro ro i H2 ctx2 t2 hro hi hz2 hnod2 hdone hph2
    obtain ⟨m, h1, h2⟩ := hdone
    have hbn : (plug ctx2 t2.blacken).nodes = (plug ctx2 t2).nodes := by
      rw [plug_nodes, plug_nodes, blacken_nodes]
    have fin : ∀ H', Z (upd w.heap z (some nz)) hdr ⟨firstP hdr (plug ctx' x).nodes, lastP hdr (plug ctx' x).nodes, o,
        (plug ctx (.node z zc l k r)).nodes.length⟩ ctx2 t2.blacken H' → Q (z, ro, i) (w.setHeap H') := by
      intro H' hz'
      refine hQ _ H' nz (plug ctx2 t2.blacken) rfl hro (Nat.le_trans hi hlog) hnv hno (by rw [hbn, hnod2, hnod]) ⟨m, h1⟩ h2 ?_ ?_
      · have := hz'.toPlug
        rw [hbn, hnod2]
        exact this
      · have := phi_plug_blacken ctx2 t2
        simp only
        omega
    simp only [World.setHeap_setHeap]
    by_cases ht2 : t2 = .nil
    · subst ht2
      refine wp_if_neg (by simp [T.ptr]) ?_
      exact fin _ hz2
    · obtain ⟨p2, c2, a2, k2, b2, rfl⟩ := exists_mk .L ht2
      refine wp_if_pos (by rw [mk_ptr]; exact hz2.focus_ne_null) ?_
      rw [mk_ptr, wp_bind]
      refine wp_setColor_focus (w := w.setHeap H2) (c' := .black) (by exact hz2) ?_
      intro H3 hz3
      exact fin _ hz3

theorem wp_eraseIterN {z : Ptr} {A B : List (Ptr × K)} {Q : Ptr × Nat × Nat → W K → Prop}
    (h : Tree w.heap hdr o t) (hn : t.nodes = A ++ (z, k) :: B)
    (hQ : ∀ a w' t', Tree w'.heap hdr o t' → t'.nodes = A ++ B → a.2.1 ≤ 3 → a.2.2 ≤ 2 * Nat.log2 t.nodes.length →
      a.2.2 + phi t' ≤ phi t + 12 → Q a w') : wp (eraseIterN hdr z) w Q := by
  unfold eraseIterN
  rw [wp_bind]
  refine wp_increment' h hn ?_
  obtain ⟨ctx, zc, l, r, rfl, hA, hB⟩ := exists_zipper hn
  subst hA hB
  have hnd : z ∉ ((pre ctx ++ l.nodes) ++ (r.nodes ++ post ctx)).map Prod.fst := by
    have hnd := h.ok.nodup
    rw [T.ptrs, hn] at hnd
    simp only [List.map_append, List.map_cons, List.nodup_append, List.nodup_cons, List.mem_append, List.mem_cons] at hnd ⊢
    grind
  have hzm : z ∈ (plug ctx (T.node z zc l k r)).ptrs := by rw [T.ptrs, hn]; simp
  have hzh := h.node_ne_hdr hzm
  obtain ⟨i, hi⟩ := h.ok.dyn z hzm
  unfold eraseAuxN
  simp only [wp_bind]
  refine wp_rebalanceForEraseN h ?_
  rintro ⟨z', a⟩ H1 nz t' hzz h1 h2 hnv hno hnod hrb hbl hz h3
  dsimp only at hzz
  subst z'
  have hzcell : H1 z = some nz := by
    rw [hz.frame z hzh (by rw [plug, T.ptrs, hnod]; exact hnd), upd_same]
  refine wp_destroyNode (w := w.setHeap H1) hi (by exact hzcell) hnv (by exact hz.hdrCell) h.stk (by rw [hno]; rfl) ?_
  simp only [World.setHeap_heap, World.setHeap_setHeap, setCount]
  have hh2 : upd H1 z none hdr = some _ := (upd_other _ _ (Ne.symm hzh)).trans hz.hdrCell
  rw [wp_modCell (by exact hh2) h.hdr_ne]
  simp only [World.setHeap_heap, World.setHeap_setHeap]
  have hz' : z ∉ t'.ptrs := by rw [T.ptrs, hnod]; exact hnd
  have hht : hdr ∉ t'.ptrs := fun e => hz.ne_hdr (by exact e) rfl
  refine hQ _ _ t' ⟨?_, ?_, hz.ok, hrb, hbl⟩ hnod h1 h2 h3
  · simp only [World.setHeap_heap]
    rw [upd_same, hn, hnod]
    simp [hdCell, plug]
    omega
  · exact Rep_upd (Rep_upd hz.rep hz') hht

end
end Nestl.RB
