import Verif.Model.Fed
import Verif.Props.Network
set_option linter.unusedSectionVars false
/-! # One federated round on the network model -/
namespace Verif.Fed
open Verif NetState Verif.Props

section
variable {A V Ω α σ : Type} [DecidableEq A]

/-- `v'` is what a receiver may get when `a` sends `v`: compressed, possibly with noise added -/
def Arrives (w : World A V Ω) (a : A) (v v' : V) : Prop :=
  ∃ (ω : Ω) (k j : Nat), v' = sentMsg w (w.compress a v ω).1 (w.makeNoise a k (w.compress a v ω).1 (w.compress a v ω).2).1 j

/-- the sender's messages arrive unchanged, if at all -/
def Exact (w : World A V Ω) (a : A) : Prop :=
  (∀ v ω, (w.compress a v ω).1 = v) ∧ ∀ k v ω, (w.makeNoise a k v ω).1 = none

/-- the sender's messages are never dropped -/
def Lossless (w : World A V Ω) (a : A) : Prop := ∀ ω, (w.shouldDrop a ω).1 = false

theorem Arrives.exact {w : World A V Ω} {a : A} {v v' : V} (h : Arrives w a v v') (he : Exact w a) : v' = v := by
  obtain ⟨ω, k, j, rfl⟩ := h
  rw [he.2]; simp [sentMsg, he.1]

/-- a message was delivered, or dropped -/
def Delivery (w : World A V Ω) (a : A) (v : V) (old new : Option V) : Prop :=
  (∃ v', Arrives w a v v' ∧ new = some v' ∧ ∃ ω, (w.shouldDrop a ω).1 = false) ∨ (new = old ∧ ∃ ω, (w.shouldDrop a ω).1 = true)

theorem Delivery.lossless {w : World A V Ω} {a : A} {v : V} {old new : Option V} (h : Delivery w a v old new)
    (hl : Lossless w a) : ∃ v', Arrives w a v v' ∧ new = some v' := by
  rcases h with ⟨v', h1, h2, _⟩ | ⟨_, ω, hω⟩
  · exact ⟨v', h1, h2⟩
  · rw [hl ω] at hω; cases hω

/-- the sender's messages are always dropped -/
def AlwaysDropped (w : World A V Ω) (a : A) : Prop := ∀ ω, (w.shouldDrop a ω).1 = true

theorem Delivery.dropped {w : World A V Ω} {a : A} {v : V} {old new : Option V} (h : Delivery w a v old new)
    (hl : AlwaysDropped w a) : new = old := by
  rcases h with ⟨v', h1, h2, ω, hω⟩ | ⟨h, _⟩
  · rw [hl ω] at hω; cases hω
  · exact h

/-- the server is always active, as the constructor demands (networks.py 533-534) -/
def ServerUp (w : World A V Ω) (server : A) : Prop := ∀ it ω, (w.isActive server it ω).1 = true

theorem confirm_dropped (w : World A V Ω) (a : A) (l : List A) (ω : Ω) (b : A) (hb : b ∈ l)
    (h : b ∉ (confirm w a l ω).1) : ∃ ω, (w.shouldDrop a ω).1 = true := by
  induction l generalizing ω with
  | nil => cases hb
  | cons c t ih =>
    simp only [confirm] at h
    by_cases hd : (w.shouldDrop a ω).1 = true
    · exact ⟨ω, hd⟩
    · rw [if_neg hd] at h
      rcases List.mem_cons.1 hb with rfl | hb
      · simp at h
      · exact ih _ hb (fun e => h (List.mem_cons_of_mem _ e))

theorem confirm_kept (w : World A V Ω) (a : A) (l : List A) (ω : Ω) (b : A) (h : b ∈ (confirm w a l ω).1) :
    ∃ ω, (w.shouldDrop a ω).1 = false := by
  induction l generalizing ω with
  | nil => simp [confirm] at h
  | cons c t ih =>
    simp only [confirm] at h
    by_cases hd : (w.shouldDrop a ω).1 = true
    · rw [if_pos hd] at h
      exact ih _ h
    · exact ⟨ω, by simpa using hd⟩

theorem deliver_summary (w : World A V Ω) (a : A) (l : List A) (m : V) (ch : FChan) (s : NetState A FChan V Ω) :
    (∀ b, b ∉ l → (s.deliver w a l m ch).inbox b = s.inbox b) ∧
    (∀ b c x, ¬ (c = ch ∧ x = a) → ((s.deliver w a l m ch).inbox b).abs c x = (s.inbox b).abs c x) ∧
    (∀ b ∈ l, Delivery w a m ((s.inbox b).abs ch a) (((s.deliver w a l m ch).inbox b).abs ch a)) := by
  obtain ⟨_, _, _, _, _, _, g7, g8, g9⟩ := deliver_spec w a l m ch s
  refine ⟨fun b hb => g7 b (fun e => hb (confirm_sub w a l s.ω b e)), g8, fun b hb => ?_⟩
  by_cases hc : b ∈ (confirm w a l s.ω).1
  · obtain ⟨j, _, _, hj⟩ := g9 b hc
    exact Or.inl ⟨_, ⟨_, _, _, rfl⟩, hj, confirm_kept w a l s.ω b hc⟩
  · exact Or.inr ⟨by rw [g7 b hc], confirm_dropped w a l s.ω b hb hc⟩

variable {n : Net A} {server : A} {clients : List A}

/-- a client's upload -/
theorem upload_spec (w : World A V Ω) (hf : IsFed n server clients) (hup : ServerUp w server) (c : A) (hc : c ∈ clients)
    (m : V) (ch : FChan) (s : NetState A FChan V Ω) (hi : CInv n s) :
    ∃ s', s.sendFed w n server c (.one server) (some m) ch = (s', .ok ()) ∧ CInv n s' ∧
      s'.activeCache = s.activeCache ∧ s'.iteration = s.iteration ∧ (∀ b, b ≠ server → s'.inbox b = s.inbox b) ∧
      (∀ ch' a, ¬ (ch' = ch ∧ a = c) → (s'.inbox server).abs ch' a = (s.inbox server).abs ch' a) ∧
      Delivery w c m ((s.inbox server).abs ch c) ((s'.inbox server).abs ch c) := by
  have hcs : c ≠ server := fun e => hf.server_not_client (e ▸ hc)
  have hcn : c ∈ n.nodes := by rw [hf.nodes]; exact List.mem_cons_of_mem _ hc
  set s1 : NetState A FChan V Ω := (allowedFed w n server c s).2 with hs1
  have ha1 : (allowedFed w n server c s).1 = [server] := by simp [allowedFed, hcs, hup s.iteration s.ω]
  have hs1' : s1 = { s with ω := (w.isActive server s.iteration s.ω).2 } := by simp [hs1, allowedFed, hcs]
  have hsend : s.sendFed w n server c (.one server) (some m) ch = (s1.deliver w c [server] m ch, .ok ()) := by
    unfold sendFed
    simp only [hcs, false_and, if_false, ne_eq, not_true_eq_false, and_false]
    unfold sendBase
    simp only [hcn, not_true_eq_false, if_false, hf.client_nbrs c hc, List.mem_singleton]
    simp [ha1, hs1]
  have hi1 : CInv n s1 := by rw [hs1']; exact ⟨hi.active, hi.conn⟩
  obtain ⟨_, _, g3, _, g5, _⟩ := deliver_spec w c [server] m ch s1
  obtain ⟨d1, d2, d3⟩ := deliver_summary w c [server] m ch s1
  refine ⟨_, hsend, deliver_cinv w n c _ m ch s1 hi1, ?_, ?_, ?_, ?_, ?_⟩
  · rw [g3, hs1']
  · rw [g5, hs1']
  · intro b hb; rw [d1 b (by simpa using hb), hs1']
  · intro ch' a h; rw [d2 server ch' a h, hs1']
  · have := d3 server (by simp)
    rw [hs1'] at this ⊢
    exact this

/-- the server's broadcast to selected, active clients -/
theorem broadcast_spec (w : World A V Ω) (hf : IsFed n server clients) (act : List A) (l : List A)
    (hl : ∀ c ∈ l, c ∈ act ∧ c ∈ clients) (m : V) (ch : FChan) (s : NetState A FChan V Ω) (hi : CInv n s)
    (hact : s.activeCache = some act) :
    ∃ s', s.sendFed w n server server (.many l) (some m) ch = (s', .ok ()) ∧ CInv n s' ∧
      s'.activeCache = some act ∧ s'.iteration = s.iteration ∧ (∀ b, b ∉ l → s'.inbox b = s.inbox b) ∧
      (∀ b ch' a, ¬ (ch' = ch ∧ a = server) → (s'.inbox b).abs ch' a = (s.inbox b).abs ch' a) ∧
      ∀ b ∈ l, Delivery w server m ((s.inbox b).abs ch server) ((s'.inbox b).abs ch server) := by
  have hsn : server ∈ n.nodes := by rw [hf.nodes]; simp
  have hnow : s.activeNow w n = act := activeNow_of_cache w n s act hact
  obtain ⟨c1, c2, c3, c4, c5, c6⟩ := activeConnected_spec w n server s hi
  have ha : allowedFed w n server server s = s.activeConnected w n server := by simp [allowedFed]
  have hnl : server ∉ l := fun e => hf.server_not_client (hl server e).2
  set s1 := (s.activeConnected w n server).2 with hs1
  have hsend : s.sendFed w n server server (.many l) (some m) ch = (s1.deliver w server l m ch, .ok ()) := by
    unfold sendFed
    have hany : l.any (fun r => decide (r = server)) = false := by
      rw [List.any_eq_false]; intro x hx; simp; exact fun e => hnl (e ▸ hx)
    simp only [ne_eq, not_true_eq_false, if_false, hany, Bool.false_eq_true]
    unfold sendBase
    simp only [hsn, not_true_eq_false, if_false]
    rw [ha, ← hs1, c1, hnow, if_pos]
    rw [List.all_eq_true]
    intro r hr
    simp [hf.server_nbrs, hl r hr]
  obtain ⟨_, _, g3, _, g5, _⟩ := deliver_spec w server l m ch s1
  obtain ⟨d1, d2, d3⟩ := deliver_summary w server l m ch s1
  have hin : s1.inbox = s.inbox := c3.inbox
  refine ⟨_, hsend, deliver_cinv w n server _ m ch s1 c4, ?_, ?_, ?_, ?_, ?_⟩
  · rw [g3, c2, hnow]
  · rw [g5, c5]
  · intro b hb; rw [d1 b hb, hin]
  · intro b ch' a h; rw [d2 b ch' a h, hin]
  · intro b hb; rw [← hin]; exact d3 b hb

/-- uploads of one client, in order, on distinct channels -/
theorem uploads_spec (w : World A V Ω) (hf : IsFed n server clients) (hup : ServerUp w server) (c : A) (hc : c ∈ clients)
    (ups : List (FChan × V)) (hd : (ups.map Prod.fst).Nodup) (s : FSys A V Ω α σ) (hi : CInv n s.net) :
    ∃ net', ups.foldlM (fun s u => FedAlg.sendF w n server c (.one server) u.2 u.1 s) s =
        (.ok { s with net := net' } : Py (FSys A V Ω α σ)) ∧ CInv n net' ∧
      net'.activeCache = s.net.activeCache ∧ net'.iteration = s.net.iteration ∧
      (∀ b, b ≠ server → net'.inbox b = s.net.inbox b) ∧
      (∀ ch' a, ¬ (ch' ∈ ups.map Prod.fst ∧ a = c) → (net'.inbox server).abs ch' a = (s.net.inbox server).abs ch' a) ∧
      ∀ u ∈ ups, Delivery w c u.2 ((s.net.inbox server).abs u.1 c) ((net'.inbox server).abs u.1 c) := by
  induction ups generalizing s with
  | nil => exact ⟨s.net, rfl, hi, rfl, rfl, fun _ _ => rfl, fun _ _ _ => rfl, by simp⟩
  | cons u t ih =>
    obtain ⟨s1, h1, i1, a1, t1, b1, c1, d1⟩ := upload_spec w hf hup c hc u.2 u.1 s.net hi
    rw [List.map_cons, List.nodup_cons] at hd
    obtain ⟨s2, h2, i2, a2, t2, b2, c2, d2⟩ := ih hd.2 { s with net := s1 } i1
    refine ⟨s2, ?_, i2, a2.trans a1, t2.trans t1, fun b hb => (b2 b hb).trans (b1 b hb), ?_, ?_⟩
    · rw [List.foldlM_cons]
      have : FedAlg.sendF w n server c (.one server) u.2 u.1 s = .ok { s with net := s1 } := by
        simp [FedAlg.sendF, h1]
      rw [this]; exact h2
    · intro ch' a h
      rw [c2 ch' a (fun e => h ⟨by simp only [List.map_cons, List.mem_cons]; exact Or.inr e.1, e.2⟩)]
      exact c1 ch' a (fun e => h ⟨by simp [e.1], e.2⟩)
    · intro v hv
      rcases List.mem_cons.1 hv with rfl | hv
      · rw [c2 v.1 c (fun e => hd.1 e.1)]; exact d1
      · have hne : v.1 ≠ u.1 := fun e => hd.1 (e ▸ List.mem_map.2 ⟨v, hv, rfl⟩)
        have := d2 v hv
        simp only at this
        rw [c1 v.1 c (fun e => hne e.1)] at this
        exact this

/-- local training and uploads of all participants -/
theorem train_loop (alg : FedAlg A V Ω α σ) (hch : ∀ c m v ω, (((alg.train c m v ω).1.2).map Prod.fst).Nodup)
    (w : World A V Ω) (hf : IsFed n server clients) (hup : ServerUp w server) (bc : A → V) (P : List A) (hP : P.Nodup)
    (hsub : ∀ c ∈ P, c ∈ clients) (s : FSys A V Ω α σ) (hi : CInv n s.net)
    (hbc : ∀ c ∈ P, (s.net.inbox c).abs .dflt server = some (bc c)) :
    ∃ net' cli', ∃ ωs : A → Ω, P.foldlM (fun s c => alg.trainOne w n server c s) s =
        .ok { s with net := net', cli := cli' } ∧ CInv n net' ∧
      net'.activeCache = s.net.activeCache ∧ net'.iteration = s.net.iteration ∧
      (∀ b, b ≠ server → net'.inbox b = s.net.inbox b) ∧
      (∀ c, cli' c = if c ∈ P then (alg.train c (bc c) (s.cli c) (ωs c)).1.1 else s.cli c) ∧
      (∀ ch a, ¬ (a ∈ P ∧ ch ∈ ((alg.train a (bc a) (s.cli a) (ωs a)).1.2).map Prod.fst) →
        (net'.inbox server).abs ch a = (s.net.inbox server).abs ch a) ∧
      ∀ c ∈ P, ∀ u ∈ (alg.train c (bc c) (s.cli c) (ωs c)).1.2,
        Delivery w c u.2 ((s.net.inbox server).abs u.1 c) ((net'.inbox server).abs u.1 c) := by
  induction P generalizing s with
  | nil => exact ⟨s.net, s.cli, fun _ => s.net.ω, rfl, hi, rfl, rfl, fun _ _ => rfl, by simp, by simp, by simp⟩
  | cons c t ih =>
    have hct := (List.nodup_cons.1 hP).1
    have hcc := hsub c (by simp)
    have hcs : c ≠ server := fun e => hf.server_not_client (e ▸ hcc)
    set r := alg.train c (bc c) (s.cli c) s.net.ω with hr
    set s1 : FSys A V Ω α σ := { s with net := { s.net with ω := r.2 }, cli := upd s.cli c r.1.1 } with hs1
    obtain ⟨n1, h1, i1, a1, t1, b1, c1, d1⟩ := uploads_spec (s := s1) w hf hup c hcc r.1.2 (hch _ _ _ _)
      ⟨hi.active, hi.conn⟩
    have hstep : alg.trainOne w n server c s = .ok { s1 with net := n1 } := by
      unfold FedAlg.trainOne
      rw [Inbox.get_eq, hbc c (by simp)]
      exact h1
    obtain ⟨n2, cli2, ωs, h2, i2, a2, t2, b2, e2, f2, g2⟩ := ih (List.nodup_cons.1 hP).2
      (fun x hx => hsub x (by simp [hx])) { s1 with net := n1 } i1 (fun x hx => by
        have hxs : x ≠ server := fun e => hf.server_not_client (e ▸ hsub x (by simp [hx]))
        simp only
        rw [b1 x hxs]
        exact hbc x (by simp [hx]))
    have hcli : ∀ x ∈ t, s1.cli x = s.cli x := by
      intro x hx
      have : x ≠ c := fun e => hct (e ▸ hx)
      simp [hs1, upd, this]
    refine ⟨n2, cli2, upd ωs c s.net.ω, ?_, i2, a2.trans a1, t2.trans t1, fun b hb => (b2 b hb).trans (b1 b hb), ?_, ?_, ?_⟩
    · rw [List.foldlM_cons, hstep]; exact h2
    · intro x
      rw [e2 x]
      by_cases hxc : x = c
      · subst hxc
        simp [hct, hs1, upd, hr]
      · by_cases hxt : x ∈ t
        · simp [hxt, hxc, upd, hcli x hxt]
        · simp [hxt, hxc, hs1, upd]
    · intro ch a h
      by_cases hac : a = c
      · subst hac
        rw [f2 ch a (fun e => hct e.1)]
        exact c1 ch a (fun e => h ⟨by simp, by simpa [upd, hr] using e.1⟩)
      · rw [f2 ch a (fun e => h ⟨by simp [e.1], by
          have := e.2; simp only [hcli a e.1] at this; simpa [upd, hac] using this⟩)]
        exact c1 ch a (fun e => hac e.2)
    · intro x hx u hu
      by_cases hxc : x = c
      · subst hxc
        have hu' : u ∈ r.1.2 := by simpa [upd, hr] using hu
        rw [f2 u.1 x (fun e => hct e.1)]
        exact d1 u hu'
      · have hxt : x ∈ t := by simpa [hxc] using hx
        have hu' : u ∈ (alg.train x (bc x) (s1.cli x) (ωs x)).1.2 := by rw [hcli x hxt]; simpa [upd, hxc] using hu
        have := g2 x hxt u hu'
        simp only at this
        rw [c1 u.1 x (fun e => hxc e.2)] at this
        exact this

/-- a selection scheme returns distinct clients among those offered -/
def SelOK (sel : Select A Ω) : Prop :=
  ∀ f, sel = some f → ∀ l k ω, l.Nodup → ∃ l' ω', f l k ω = .ok (l', ω') ∧ l'.Nodup ∧ ∀ c ∈ l', c ∈ l

theorem filterActive_sublist (w : World A V Ω) (it : Int) (l : List A) (ω : Ω) :
    (filterActive w it l ω).1.Sublist l := by
  induction l generalizing ω with
  | nil => simp [filterActive]
  | cons b t ih =>
    simp only [filterActive]
    split
    · exact (ih _).cons_cons b
    · exact (ih _).cons b

theorem filterActive_all (w : World A V Ω) (it : Int) (l : List A) (ω : Ω)
    (h : ∀ c ∈ l, ∀ it ω, (w.isActive c it ω).1 = true) : (filterActive w it l ω).1 = l := by
  induction l generalizing ω with
  | nil => rfl
  | cons b t ih =>
    simp only [filterActive]
    rw [if_pos (h b (by simp) it ω), ih _ (fun c hc => h c (by simp [hc]))]

theorem foldl_count (l : List A) (hl : l.Nodup) (f : A → Nat) (a : A) :
    (l.foldl (fun f c => upd f c (f c + 1)) f) a = f a + (if a ∈ l then 1 else 0) := by
  induction l generalizing f with
  | nil => simp
  | cons c t ih =>
    rw [List.foldl_cons, ih (List.nodup_cons.1 hl).2]
    by_cases hac : a = c
    · subst hac; simp [upd, (List.nodup_cons.1 hl).1]
    · simp [upd, hac]

/-- What one round does, seen from outside: the selected clients, the participants (those that got the broadcast), what
they received, the world states in which they trained; `s` is the system at the start of the round (inboxes cleared), `net'`,
`cli'` the state before the server's aggregation. -/
structure Round (alg : FedAlg A V Ω α σ) (sel : Select A Ω) (w : World A V Ω) (server : A) (clients : List A) (s : FSys A V Ω α σ)
    (srv1 : σ) (net' : NetState A FChan V Ω) (cli' : A → α) (nSel' : A → Nat)
    (selected P : List A) (bc : A → V) (ωs : A → Ω) : Prop where
  prep : srv1 = (alg.prepare s.srv s.net.ω).1
  sel_nodup : selected.Nodup
  sel_client : ∀ c ∈ selected, c ∈ clients
  nodup : P.Nodup
  sub : ∀ c ∈ P, c ∈ selected
  heard : ∀ c ∈ P, Arrives w server (alg.payload srv1) (bc c)
  missed : ∀ c ∈ selected, c ∉ P → ∃ ω, (w.shouldDrop server ω).1 = true
  cli : ∀ c, cli' c = if c ∈ P then (alg.train c (bc c) (s.cli c) (ωs c)).1.1 else s.cli c
  uploads : ∀ c ∈ P, ∀ u ∈ (alg.train c (bc c) (s.cli c) (ωs c)).1.2,
    Delivery w c u.2 none ((net'.inbox server).abs u.1 c)
  only : ∀ ch a, (net'.inbox server).abs ch a ≠ none →
    a ∈ P ∧ ch ∈ ((alg.train a (bc a) (s.cli a) (ωs a)).1.2).map Prod.fst
  count : ∀ c, nSel' c = s.nSelected c + if c ∈ selected then 1 else 0
  inboxes : ∀ c ∈ clients, (net'.inbox c).abs .dflt server = if c ∈ P then some (bc c) else none
  all_active : sel = none → (∀ c ∈ clients, ∀ it ω, (w.isActive c it ω).1 = true) → selected = clients

/-- every round is a `Round` followed by the aggregation -/
theorem step_spec (alg : FedAlg A V Ω α σ) (hch : ∀ c m v ω, (((alg.train c m v ω).1.2).map Prod.fst).Nodup)
    (hagg : ∀ b srv, alg.aggregate clients b [] srv = .ok srv)
    (w : World A V Ω) (hf : IsFed n server clients) (hup : ServerUp w server) (sel : Select A Ω) (hsel : SelOK sel)
    (k : Int) (s : FSys A V Ω α σ) (hcache : s.net.activeCache = none) (hconn : s.net.connCache = PyDict.empty)
    (hempty : ∀ a ∈ n.nodes, ∀ ch b, (s.net.inbox a).abs ch b = none) :
    ∃ srv1 net' cli' nSel' selected P bc, ∃ ωs : A → Ω,
      Round alg sel w server clients s srv1 net' cli' nSel' selected P bc ωs ∧
      alg.step sel server w n k s = (alg.aggregate clients (net'.inbox server) P srv1).bind
        (fun srv => .ok ⟨net', srv, cli', nSel'⟩) := by
  set p := alg.prepare s.srv s.net.ω with hp
  set s1 : FSys A V Ω α σ := { s with srv := p.1, net := { s.net with ω := p.2 } } with hs1
  have hc1 : CInv n s1.net := cinv_of_empty n _ hcache hconn
  have hsn : server ∈ n.nodes := by rw [hf.nodes]; simp
  have hcn : ∀ c ∈ clients, c ∈ n.nodes := fun c hc => by rw [hf.nodes]; exact List.mem_cons_of_mem _ hc
  obtain ⟨a1, a2, a3, a4, a5, a6, _⟩ := activeAgents_spec w n s1.net hc1
  set act := (s1.net.activeAgents w n).1 with hact
  set s2 := (s1.net.activeAgents w n).2 with hs2
  have hactnd : act.Nodup := by
    rw [hact]
    unfold activeAgents
    have : s1.net.activeCache = none := hcache
    rw [this]
    have hq : n.queryAgents.Nodup := hf.wf.query_nodup
    exact (filterActive_sublist w _ _ _).nodup hq
  have hactc : ∀ c ∈ act, c ∈ clients := fun c hc => by have := a6 c hc; rwa [hf.query] at this
  -- selection
  have hselect : ∃ selected ω nSel', FedAlg.selectClients w n sel k s1 =
      .ok (selected, { s1 with net := { s2 with ω := ω }, nSelected := nSel' }) ∧
      selected.Nodup ∧ (∀ c ∈ selected, c ∈ act) ∧ (sel = none → selected = act) ∧
      ∀ c, nSel' c = s.nSelected c + if c ∈ selected then 1 else 0 := by
    unfold FedAlg.selectClients
    simp only
    rw [← hact, ← hs2]
    by_cases he : act = []
    · rw [if_pos he]
      exact ⟨[], s2.ω, s.nSelected, rfl, by simp, by simp, fun _ => he.symm, by simp⟩
    · rw [if_neg he]
      cases hsel' : sel with
      | none => exact ⟨act, s2.ω, _, rfl, hactnd, fun _ h => h, fun _ => rfl, fun c => foldl_count act hactnd _ c⟩
      | some f =>
        obtain ⟨l', ω', h1, h2, h3⟩ := hsel f hsel' act k s2.ω hactnd
        simp only [h1]
        exact ⟨l', ω', _, rfl, h2, h3, fun e => (by simp at e), fun c => foldl_count l' h2 _ c⟩
  obtain ⟨selected, ω, nSel', hse, hsnd, hsact, hall, hcount⟩ := hselect
  have hallact : sel = none → (∀ c ∈ clients, ∀ it ω, (w.isActive c it ω).1 = true) → selected = clients := by
    intro h0 h1
    rw [hall h0, hact]
    unfold activeAgents
    have : s1.net.activeCache = none := hcache
    rw [this]
    simp only
    rw [hf.query]
    exact filterActive_all w _ _ _ h1
  set s3 : FSys A V Ω α σ := { s1 with net := { s2 with ω := ω }, nSelected := nSel' } with hs3
  have hempty3 : ∀ a ∈ n.nodes, ∀ ch b, (s3.net.inbox a).abs ch b = none := by
    intro a ha ch b
    have : s3.net.inbox = s.net.inbox := by simp only [hs3, a2.inbox, hs1]
    rw [this]; exact hempty a ha ch b
  have hi3 : CInv n s3.net := ⟨a3.active, a3.conn⟩
  by_cases hsel0 : selected = []
  · refine ⟨p.1, s3.net, s.cli, nSel', [], [], fun _ => alg.payload p.1, fun _ => ω, ⟨rfl, by simp, by simp, by simp,
      by simp, by simp, by simp, by simp, by simp, ?_, ?_, ?_, ?_⟩, ?_⟩
    · intro ch a h; exact absurd (hempty3 server hsn ch a) h
    · intro c; rw [hcount c, hsel0]
    · intro c hc; simp [hempty3 c (hcn c hc)]
    · intro h0 h1; rw [← hallact h0 h1, hsel0]
    · unfold FedAlg.step
      simp only [← hp]
      rw [hse]
      simp only [bind, Except.bind, hsel0, if_true, hagg]
      rfl
  · obtain ⟨net4, h4, i4, ac4, t4, b4, c4, d4⟩ := broadcast_spec w hf act selected
      (fun c hc => ⟨hsact c hc, hactc c (hsact c hc)⟩) (alg.payload p.1) .dflt s3.net hi3 a1
    set s4 : FSys A V Ω α σ := { s3 with net := net4 } with hs4
    have hsend : FedAlg.sendF w n server server (.many selected) (alg.payload s3.srv) .dflt s3 = .ok s4 := by
      simp only [FedAlg.sendF, hs3, hs1]
      simp only [hs3, hs1] at h4
      rw [h4]
    have hserver4 : ∀ ch a, (net4.inbox server).abs ch a = none := by
      intro ch a
      rw [b4 server (fun e => hf.server_not_client (hactc _ (hsact _ e)))]
      exact hempty3 server hsn ch a
    set P := selected.filter (fun c => (net4.inbox c).has server .dflt) with hP
    have hPnd : P.Nodup := hsnd.filter _
    have hPsub : ∀ c ∈ P, c ∈ selected := fun c hc => (List.mem_filter.1 hc).1
    have hPhas : ∀ c ∈ P, ((net4.inbox c).abs .dflt server).isSome := by
      intro c hc
      have := (List.mem_filter.1 hc).2
      rwa [Inbox.has_eq] at this
    set bc : A → V := fun c => ((net4.inbox c).abs .dflt server).getD (alg.payload p.1) with hbc
    have hbcP : ∀ c ∈ P, (net4.inbox c).abs .dflt server = some (bc c) := by
      intro c hc
      obtain ⟨v, hv⟩ := Option.isSome_iff_exists.1 (hPhas c hc)
      simp [hbc, hv]
    have hheard : ∀ c ∈ P, Arrives w server (alg.payload p.1) (bc c) := by
      intro c hc
      rcases d4 c (hPsub c hc) with ⟨v', hv, hn, _⟩ | ⟨hn, _⟩
      · have : bc c = v' := by simp [hbc, hn]
        rw [this]; exact hv
      · have h0 := hempty3 c (hcn c (hactc c (hsact c (hPsub c hc)))) .dflt server
        exact absurd (hPhas c hc) (by rw [hn, h0]; simp)
    have hmiss : ∀ c ∈ selected, c ∉ P → ∃ ω, (w.shouldDrop server ω).1 = true := by
      intro c hc hcP
      rcases d4 c hc with ⟨v', hv, hn, _⟩ | ⟨_, h⟩
      · exact absurd (List.mem_filter.2 ⟨hc, by rw [Inbox.has_eq, hn]; rfl⟩) hcP
      · exact h
    have hinb : ∀ c ∈ clients, (net4.inbox c).abs .dflt server = if c ∈ P then some (bc c) else none := by
      intro c hc
      by_cases hcP : c ∈ P
      · rw [if_pos hcP, hbcP c hcP]
      · rw [if_neg hcP]
        by_cases hcs : c ∈ selected
        · by_contra hne
          exact hcP (List.mem_filter.2 ⟨hcs, by rw [Inbox.has_eq]; exact Option.isSome_iff_ne_none.2 hne⟩)
        · rw [b4 c hcs]; exact hempty3 c (hcn c hc) _ _
    by_cases hP0 : P = []
    · refine ⟨p.1, net4, s.cli, nSel', selected, P, bc, fun _ => ω, ⟨rfl, hsnd, fun c hc => hactc c (hsact c hc), hPnd, hPsub,
        hheard, hmiss, by simp [hP0], by simp [hP0], ?_, hcount, hinb, hallact⟩, ?_⟩
      · intro ch a h; exact absurd (hserver4 ch a) h
      · unfold FedAlg.step
        simp only [← hp]
        rw [hse]
        simp only [bind, Except.bind, hsel0, if_false]
        rw [hsend]
        simp only [hs4]
        rw [if_pos hP0, hP0, hagg]
    · obtain ⟨net5, cli5, ωs, h5, i5, ac5, t5, b5, e5, f5, g5⟩ := train_loop alg hch w hf hup bc P hPnd
        (fun c hc => hactc c (hsact c (hPsub c hc))) s4 i4 hbcP
      refine ⟨p.1, net5, cli5, nSel', selected, P, bc, ωs, ⟨rfl, hsnd, fun c hc => hactc c (hsact c hc), hPnd, hPsub,
        hheard, hmiss, e5, ?_, ?_, hcount, ?_, hallact⟩, ?_⟩
      · intro c hc u hu
        have := g5 c hc u hu
        rwa [hserver4] at this
      · intro ch a h
        by_contra hcon
        exact h ((f5 ch a hcon).trans (hserver4 ch a))
      · intro c hc
        rw [b5 c (fun e => hf.server_not_client (e ▸ hc))]
        exact hinb c hc
      · unfold FedAlg.step
        simp only [← hp]
        rw [hse]
        simp only [bind, Except.bind, hsel0, if_false]
        rw [hsend]
        simp only
        rw [if_neg hP0, h5]
        simp only [hf.query]
        rfl

/-! ### runs -/

theorem after_zero (alg : FedAlg A V Ω α σ) (sel : Select A Ω) (w : World A V Ω) (x0 : A → V) (s : FSys A V Ω α σ) :
    alg.after sel server w n x0 s 0 = .ok (alg.initialize_ n server x0 s) := rfl

theorem loop_indep (alg : FedAlg A V Ω α σ) (sel : Select A Ω) (w : World A V Ω) (x0 : A → V) (N N' : Int) (m : Nat)
    (k : Int) (s : FSys A V Ω α σ) :
    (alg.ops sel server w n x0).loop N m k s = (alg.ops sel server w n x0).loop N' m k s := by
  induction m generalizing k s with
  | zero => rfl
  | succ m ih =>
    simp only [RunOps.loop]
    have : (alg.ops sel server w n x0).body N k s = (alg.ops sel server w n x0).body N' k s := rfl
    rw [this]
    congr 1
    funext s'
    exact ih _ _

theorem loop_snoc (alg : FedAlg A V Ω α σ) (sel : Select A Ω) (w : World A V Ω) (x0 : A → V) (N : Int) (m : Nat) (k : Int)
    (s : FSys A V Ω α σ) :
    (alg.ops sel server w n x0).loop N (m + 1) k s =
      ((alg.ops sel server w n x0).loop N m k s).bind (fun s' =>
        alg.step sel server w n (k + m) { s' with net := s'.net.step n (k + m) }) := by
  induction m generalizing k s with
  | zero =>
    simp only [RunOps.loop, RunOps.body, FedAlg.ops, bind, Except.bind, Nat.cast_zero, add_zero]
    cases alg.step sel server w n k { s with net := s.net.step n k } <;> rfl
  | succ m ih =>
    rw [RunOps.loop]
    simp only [bind, Except.bind]
    cases hb : (alg.ops sel server w n x0).body N k s with
    | error e => simp [RunOps.loop, hb, bind, Except.bind]
    | ok s' =>
      simp only
      rw [ih]
      rw [RunOps.loop]
      simp only [hb, bind, Except.bind]
      have : k + 1 + (m : Int) = k + ((m + 1 : Nat) : Int) := by push_cast; ring
      rw [this]

theorem after_succ (alg : FedAlg A V Ω α σ) (sel : Select A Ω) (w : World A V Ω) (x0 : A → V) (s : FSys A V Ω α σ) (k : Nat) :
    alg.after sel server w n x0 s (k + 1) = (alg.after sel server w n x0 s k).bind (fun s' =>
      alg.step sel server w n k { s' with net := s'.net.step n k }) := by
  unfold FedAlg.after RunOps.run
  have h1 : ¬ ((0 : Int) < 0 ∨ (0 : Int) > ((k + 1 : Nat) : Int)) := by omega
  have h2 : ¬ ((0 : Int) < 0 ∨ (0 : Int) > ((k : Nat) : Int)) := by omega
  rw [if_neg h1, if_neg h2]
  simp only [if_true, bind, Except.bind, FedAlg.ops, sub_zero, Int.toNat_natCast]
  have := loop_snoc (n := n) (server := server) alg sel w x0 ((k + 1 : Nat) : Int) k 0 (alg.initialize_ n server x0 s)
  simp only [FedAlg.ops, zero_add] at this
  rw [this]
  have h3 := loop_indep (n := n) (server := server) alg sel w x0 ((k + 1 : Nat) : Int) ((k : Nat) : Int) k 0
    (alg.initialize_ n server x0 s)
  simp only [FedAlg.ops] at h3
  rw [h3]
  rfl

/-- one iteration of `Algorithm.run`: `network._step(k)` and then the algorithm's `step` -/
def iter (alg : FedAlg A V Ω α σ) (sel : Select A Ω) (server : A) (w : World A V Ω) (n : Net A) (k : Int)
    (s : FSys A V Ω α σ) : Py (FSys A V Ω α σ) :=
  alg.step sel server w n k { s with net := s.net.step n k }

theorem after_induction (alg : FedAlg A V Ω α σ) (sel : Select A Ω) (w : World A V Ω) (x0 : A → V) (s : FSys A V Ω α σ)
    (P : Nat → FSys A V Ω α σ → Prop) (h0 : P 0 (alg.initialize_ n server x0 s))
    (hs : ∀ (k : Nat) s, P k s → ∃ s', iter alg sel server w n k s = .ok s' ∧ P (k + 1) s') (k : Nat) :
    ∃ s', alg.after sel server w n x0 s k = .ok s' ∧ P k s' := by
  induction k with
  | zero => exact ⟨_, after_zero alg sel w x0 s, h0⟩
  | succ k ih =>
    obtain ⟨s1, h1, p1⟩ := ih
    obtain ⟨s2, h2, p2⟩ := hs k s1 p1
    refine ⟨s2, ?_, p2⟩
    rw [after_succ, h1]; exact h2

/-- `step_spec` for an iteration of a run: no assumption on the state is left -/
theorem iter_spec (alg : FedAlg A V Ω α σ) (hch : ∀ c m v ω, (((alg.train c m v ω).1.2).map Prod.fst).Nodup)
    (hagg : ∀ b srv, alg.aggregate clients b [] srv = .ok srv)
    (w : World A V Ω) (hf : IsFed n server clients) (hup : ServerUp w server) (sel : Select A Ω) (hsel : SelOK sel)
    (k : Int) (s : FSys A V Ω α σ) :
    ∃ srv1 net' cli' nSel' selected P bc, ∃ ωs : A → Ω,
      Round alg sel w server clients { s with net := s.net.step n k } srv1 net' cli' nSel' selected P bc ωs ∧
      iter alg sel server w n k s = (alg.aggregate clients (net'.inbox server) P srv1).bind
        (fun srv => .ok ⟨net', srv, cli', nSel'⟩) := by
  apply step_spec alg hch hagg w hf hup sel hsel k
  · rfl
  · rfl
  · intro a ha ch b
    simp only [NetState.step, ha, if_true, Inbox.clear]
    exact Inbox.abs_empty ch b

end
end Verif.Fed
