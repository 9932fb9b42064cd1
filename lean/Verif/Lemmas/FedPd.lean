import Verif.Model.FedPd
import Verif.Lemmas.Fed
import Verif.Props.Fed
set_option linter.unusedSectionVars false
/-! # One FedPD round -/
namespace Verif.Fed
open Verif NetState Verif.Props

section
variable {A Ω E : Type} [DecidableEq A] [AddCommGroup E] [Module ℝ E]
variable {n : Net A} {server : A} {clients : List A}

/-- client variables after local training in world state `ω` -/
noncomputable def pdOut (G : Grad A Ω E) (γ η : ℝ) (K : A → Nat) (c : A) (v : PdCli E) (ω : Ω) : PdCli E :=
  ⟨(pdLocal G γ η (K c) c v ω).1, v.lam + (1 / η) • ((pdLocal G γ η (K c) c v ω).1 - v.center),
    (pdLocal G γ η (K c) c v ω).1 + η • (v.lam + (1 / η) • ((pdLocal G γ η (K c) c v ω).1 - v.center))⟩

theorem pd_train_loop (G : Grad A Ω E) (γ η : ℝ) (K : A → Nat) (P : List A) (hP : P.Nodup) (s : FSys A E Ω (PdCli E) E) :
    ∃ ω' cli', ∃ ωs : A → Ω, P.foldl (fun s c => pdTrain G γ η K c s) s = { s with net := { s.net with ω := ω' }, cli := cli' } ∧
      ∀ c, cli' c = if c ∈ P then pdOut G γ η K c (s.cli c) (ωs c) else s.cli c := by
  induction P generalizing s with
  | nil => exact ⟨s.net.ω, s.cli, fun _ => s.net.ω, rfl, by simp⟩
  | cons c t ih =>
    have hct := (List.nodup_cons.1 hP).1
    obtain ⟨ω', cli', ωs, h1, h2⟩ := ih (List.nodup_cons.1 hP).2 (pdTrain G γ η K c s)
    refine ⟨ω', cli', upd ωs c s.net.ω, ?_, ?_⟩
    · rw [List.foldl_cons, h1]; rfl
    · intro x
      rw [h2 x]
      by_cases hx : x = c
      · subst hx
        rw [if_neg hct, if_pos (by simp)]
        simp [pdTrain, upd, pdOut]
      · by_cases hxt : x ∈ t
        · rw [if_pos hxt, if_pos (by simp [hxt])]
          simp [pdTrain, upd, hx]
        · rw [if_neg hxt, if_neg (by simp [hx, hxt])]
          simp [pdTrain, upd, hx]

theorem pd_upload_loop (w : World A E Ω) (hf : IsFed n server clients) (hup : ServerUp w server) (P : List A) (hP : P.Nodup)
    (hsub : ∀ c ∈ P, c ∈ clients) (s : FSys A E Ω (PdCli E) E) (hi : CInv n s.net) :
    ∃ net', pdUpload w n server P s = .ok { s with net := net' } ∧ CInv n net' ∧
      net'.activeCache = s.net.activeCache ∧ (∀ b, b ≠ server → net'.inbox b = s.net.inbox b) ∧
      (∀ ch a, ¬ (ch = .centerCand ∧ a ∈ P) → (net'.inbox server).abs ch a = (s.net.inbox server).abs ch a) ∧
      ∀ c ∈ P, Delivery w c (s.cli c).center ((s.net.inbox server).abs .centerCand c) ((net'.inbox server).abs .centerCand c) := by
  unfold pdUpload
  induction P generalizing s with
  | nil => exact ⟨s.net, rfl, hi, rfl, fun _ _ => rfl, fun _ _ _ => rfl, by simp⟩
  | cons c t ih =>
    have hct := (List.nodup_cons.1 hP).1
    obtain ⟨s1, h1, i1, a1, t1, b1, c1, d1⟩ := upload_spec w hf hup c (hsub c (by simp)) (s.cli c).center .centerCand s.net hi
    obtain ⟨s2, h2, i2, a2, b2, c2, d2⟩ := ih (List.nodup_cons.1 hP).2 (fun x hx => hsub x (by simp [hx])) { s with net := s1 } i1
    refine ⟨s2, ?_, i2, a2.trans a1, fun b hb => (b2 b hb).trans (b1 b hb), ?_, ?_⟩
    · rw [List.foldlM_cons]
      have : FedAlg.sendF w n server c (.one server) (s.cli c).center .centerCand s = .ok { s with net := s1 } := by
        simp [FedAlg.sendF, h1]
      rw [this]; exact h2
    · intro ch a h
      rw [c2 ch a (fun e => h ⟨e.1, by simp [e.2]⟩)]
      exact c1 ch a (fun e => h ⟨e.1, by simp [e.2]⟩)
    · intro x hx
      by_cases hxc : x = c
      · subst hxc
        rw [c2 _ _ (fun e => hct e.2)]; exact d1
      · have hxt : x ∈ t := by simpa [hxc] using hx
        have := d2 x hxt
        simp only at this
        rw [c1 _ _ (fun e => hxc e.2)] at this
        exact this

theorem pd_adopt_loop (P : List A) (hP : P.Nodup) (s : FSys A E Ω (PdCli E) E) :
    ∃ cli', P.foldl (fun s c => pdAdopt server c s) s = { s with cli := cli' } ∧
      ∀ c, cli' c = if c ∈ P then { s.cli c with center := ((s.net.inbox c).abs .centerUpdate server).getD (s.cli c).center }
        else s.cli c := by
  induction P generalizing s with
  | nil => exact ⟨s.cli, rfl, by simp⟩
  | cons c t ih =>
    have hct := (List.nodup_cons.1 hP).1
    have hone : ∃ cl, pdAdopt server c s = { s with cli := cl } ∧
        ∀ x, cl x = if x = c then { s.cli c with center := ((s.net.inbox c).abs .centerUpdate server).getD (s.cli c).center } else s.cli x := by
      unfold pdAdopt
      rw [Inbox.get_eq]
      cases h : (s.net.inbox c).abs .centerUpdate server with
      | none => exact ⟨s.cli, rfl, fun x => by by_cases hx : x = c <;> simp [hx]⟩
      | some m => exact ⟨_, rfl, fun x => by by_cases hx : x = c <;> simp [upd, hx]⟩
    obtain ⟨cl, hcl, hv⟩ := hone
    obtain ⟨cli', h1, h2⟩ := ih (List.nodup_cons.1 hP).2 { s with cli := cl }
    refine ⟨cli', ?_, ?_⟩
    · rw [List.foldl_cons, hcl, h1]
    · intro x
      rw [h2 x]
      by_cases hx : x = c
      · subst hx
        simp [hct, hv]
      · simp [hv, hx]

/-- What one round does: `P` the clients that trained, `talk` whether the round communicates, `R` the clients whose candidate
reached the server, `up` what the server got from them. -/
structure PdRound (G : Grad A Ω E) (γ η : ℝ) (K : A → Nat) (coin : Ω → Bool × Ω) (w : World A E Ω) (server : A) (clients : List A)
    (s s' : FSys A E Ω (PdCli E) E) (P R : List A) (up : A → E) (talk : Bool) : Prop where
  nodup : P.Nodup
  sub : ∀ c ∈ P, c ∈ clients
  everyone : (∀ c ∈ clients, ∀ it ω, (w.isActive c it ω).1 = true) → P = clients
  coin_ : P ≠ [] → ∃ ω, talk = (coin ω).1
  count : ∀ c, s'.nSelected c = s.nSelected c + if c ∈ P then 1 else 0
  idle : ∀ c, c ∉ P → s'.cli c = s.cli c
  train : ∀ c ∈ P, ∃ ω, (s'.cli c).x = (pdLocal G γ η (K c) c (s.cli c) ω).1
  dual : ∀ c ∈ P, (s'.cli c).lam = (s.cli c).lam + (1 / η) • ((s'.cli c).x - (s.cli c).center)
  heard : Heard s' server .centerCand R up
  from_ : ∀ c ∈ R, c ∈ P ∧ Arrives w c ((s'.cli c).x + η • (s'.cli c).lam) (up c) ∧ ∃ ω, (w.shouldDrop c ω).1 = false
  lost : ∀ c ∈ P, c ∉ R → talk = false ∨ ∃ ω, (w.shouldDrop c ω).1 = true
  silent : talk = false → R = []
  kept : R = [] → s'.srv = s.srv
  mean : R ≠ [] → s'.srv = (1 / (R.length : ℝ)) • (R.map up).sum
  update : ∀ c m, c ∈ clients → (s'.net.inbox c).get server .centerUpdate = .ok m → c ∈ P ∧ R ≠ [] ∧ Arrives w server s'.srv m ∧
    (s'.cli c).center = m
  candidate : ∀ c ∈ P, (¬ ∃ m, (s'.net.inbox c).get server .centerUpdate = .ok m) →
    (s'.cli c).center = (s'.cli c).x + η • (s'.cli c).lam ∧ (R = [] ∨ ∃ ω, (w.shouldDrop server ω).1 = true)

/-- one iteration of `Algorithm.run` -/
noncomputable def pdIter (G : Grad A Ω E) (γ η : ℝ) (K : A → Nat) (coin : Ω → Bool × Ω) (server : A) (w : World A E Ω) (n : Net A)
    (k : Int) (s : FSys A E Ω (PdCli E) E) : Py (FSys A E Ω (PdCli E) E) :=
  pdStep G γ η K coin server w n k { s with net := s.net.step n k }

theorem pd_round (G : Grad A Ω E) (γ η : ℝ) (K : A → Nat) (coin : Ω → Bool × Ω) (w : World A E Ω) (hf : IsFed n server clients)
    (hup : ServerUp w server) (k : Int) (s : FSys A E Ω (PdCli E) E) :
    ∃ s' P R up talk, pdIter G γ η K coin server w n k s = .ok s' ∧ PdRound G γ η K coin w server clients s s' P R up talk := by
  unfold pdIter
  set s1 : FSys A E Ω (PdCli E) E := { s with net := s.net.step n k } with hs1
  have hempty : ∀ a ∈ n.nodes, ∀ ch b, (s1.net.inbox a).abs ch b = none := by
    intro a ha ch b
    simp only [hs1, NetState.step, ha, if_true, Inbox.clear]
    exact Inbox.abs_empty ch b
  have hcache : s1.net.activeCache = none := rfl
  have hc1 : CInv n s1.net := cinv_of_empty n _ hcache rfl
  have hsn : server ∈ n.nodes := by rw [hf.nodes]; simp
  have hcn : ∀ c ∈ clients, c ∈ n.nodes := fun c hc => by rw [hf.nodes]; exact List.mem_cons_of_mem _ hc
  obtain ⟨a1, a2, a3, a4, a5, a6, _⟩ := activeAgents_spec w n s1.net hc1
  set act := (s1.net.activeAgents w n).1 with hact
  set s2 := (s1.net.activeAgents w n).2 with hs2
  have hactnd : act.Nodup := by
    rw [hact]
    unfold activeAgents
    rw [hcache]
    have hq : n.queryAgents.Nodup := hf.wf.query_nodup
    exact (filterActive_sublist w _ _ _).nodup hq
  have hactc : ∀ c ∈ act, c ∈ clients := fun c hc => by have := a6 c hc; rwa [hf.query] at this
  have hall : (∀ c ∈ clients, ∀ it ω, (w.isActive c it ω).1 = true) → act = clients := by
    intro h1
    rw [hact]
    unfold activeAgents
    rw [hcache]
    simp only
    rw [hf.query]
    exact filterActive_all w _ _ _ h1
  have hin2 : s2.inbox = s1.net.inbox := a2.inbox
  unfold pdStep FedAlg.selectClients
  simp only
  rw [← hact, ← hs2]
  by_cases he : act = []
  · refine ⟨{ s1 with net := s2 }, [], [], fun _ => 0, false, by simp [he, bind, Except.bind], by simp, by simp, fun h => he ▸ hall h, by simp,
      by simp [hs1], fun _ _ => rfl, by simp, by simp, ⟨by simp, ?_⟩, by simp, by simp, by simp, fun _ => rfl, by simp, ?_, by simp⟩
    · intro c v
      rw [get_ok_iff]
      simp [hin2, hempty server hsn]
    · intro c m hc h
      rw [get_ok_iff] at h
      simp [hin2, hempty c (hcn c hc)] at h
  · set cnt := act.foldl (fun f c => upd f c (f c + 1)) s1.nSelected with hcnt
    have hcount : ∀ c, cnt c = s.nSelected c + if c ∈ act then 1 else 0 := fun c => foldl_count act hactnd _ c
    obtain ⟨ω', cli', ωs, ht, hcli⟩ := pd_train_loop G γ η K act hactnd { s1 with net := s2, nSelected := cnt }
    have hout : ∀ c ∈ act, cli' c = pdOut G γ η K c (s.cli c) (ωs c) := fun c hc => by rw [hcli c, if_pos hc]
    have hidle : ∀ c, c ∉ act → cli' c = s.cli c := fun c hc => by rw [hcli c, if_neg hc]
    simp only [he, if_false, bind, Except.bind]
    rw [ht]
    simp only
    set b := coin ω' with hb
    by_cases hbt : b.1 = true
    · simp only [hbt, if_true]
      set s3 : FSys A E Ω (PdCli E) E := ⟨{ s2 with ω := b.2 }, s1.srv, cli', cnt⟩ with hs3
      have hi3 : CInv n s3.net := ⟨a3.active, a3.conn⟩
      obtain ⟨net4, h4, i4, ac4, b4, c4, d4⟩ := pd_upload_loop w hf hup act hactnd hactc s3 hi3
      have h4' : pdUpload w n server act s3 = .ok { s3 with net := net4 } := h4
      simp only [hs3] at h4'
      rw [h4']
      simp only
      have hemp3 : ∀ a ∈ n.nodes, ∀ ch b, (s3.net.inbox a).abs ch b = none := by
        intro a ha ch b
        simp only [hs3, hin2]; exact hempty a ha ch b
      set R := act.filter (fun c => ((net4.inbox server).abs .centerCand c).isSome) with hR
      set up : A → E := fun c => ((net4.inbox server).abs .centerCand c).getD 0 with hupd
      have hrec : receivedFrom (net4.inbox server) .centerCand act = R.map (fun c => (c, up c)) :=
        receivedFrom_eq _ _ _ _ (fun c _ v hv => getD_val _ _ _ hv)
      have hheard : ∀ s' : FSys A E Ω (PdCli E) E, (∀ ch a, (s'.net.inbox server).abs ch a = (net4.inbox server).abs ch a) →
          Heard s' server .centerCand R up := by
        intro s' hs'
        refine ⟨hactnd.filter _, fun c v => ?_⟩
        rw [get_ok_iff, hs']
        constructor
        · intro h
          refine ⟨List.mem_filter.2 ⟨?_, by simp [h]⟩, by simp [hupd, h]⟩
          by_contra hc
          rw [c4 _ _ (fun e => hc e.2), hemp3 server hsn] at h
          cases h
        · rintro ⟨hm, rfl⟩
          obtain ⟨x, hx⟩ := Option.isSome_iff_exists.1 (List.mem_filter.1 hm).2
          simp [hupd, hx]
      have hfrom : ∀ c ∈ R, c ∈ act ∧ Arrives w c ((cli' c).x + η • (cli' c).lam) (up c) ∧ ∃ ω, (w.shouldDrop c ω).1 = false := by
        intro c hc
        have hca := (List.mem_filter.1 hc).1
        obtain ⟨x, hx⟩ := Option.isSome_iff_exists.1 (List.mem_filter.1 hc).2
        refine ⟨hca, ?_⟩
        rcases d4 c hca with ⟨v', ha, hn, hpass⟩ | ⟨hn, _⟩
        · have e1 : up c = v' := by simp [hupd, hn]
          have e2 : (s3.cli c).center = (cli' c).x + η • (cli' c).lam := by
            simp only [hs3]
            rw [hout c hca]; rfl
          rw [e1, ← e2]; exact ⟨ha, hpass⟩
        · rw [hn, hemp3 server hsn] at hx; cases hx
      have hlost : ∀ c ∈ act, c ∉ R → ∃ ω, (w.shouldDrop c ω).1 = true := by
        intro c hc hcR
        rcases d4 c hc with ⟨v', ha, hn, _⟩ | ⟨_, h⟩
        · exact absurd (List.mem_filter.2 ⟨hc, by simp [hn]⟩) hcR
        · exact h
      have hcl4 : ∀ c ∈ clients, (net4.inbox c).abs .centerUpdate server = none := by
        intro c hc
        rw [b4 c (fun e => hf.server_not_client (e ▸ hc))]
        exact hemp3 c (hcn c hc) _ _
      unfold pdAggregate
      simp only [hrec, List.map_eq_nil_iff]
      by_cases hR0 : R = []
      · refine ⟨⟨net4, s1.srv, cli', cnt⟩, act, R, up, true, by rw [if_pos hR0], hactnd, hactc, hall, fun _ => ⟨ω', hbt.symm⟩, hcount, hidle, ?_, ?_, hheard _ (fun _ _ => rfl),
          hfrom, fun c hc h => Or.inr (hlost c hc h), by simp, fun _ => rfl, fun h => absurd hR0 h, ?_, ?_⟩
        · intro c hc; exact ⟨ωs c, by simp only [hout c hc, pdOut]⟩
        · intro c hc; simp only [hout c hc, pdOut]
        · intro c m hc h
          rw [get_ok_iff] at h
          simp only [hcl4 c hc] at h
          cases h
        · intro c hc _
          refine ⟨?_, Or.inl hR0⟩
          simp only [hout c hc, pdOut]
      · rw [if_neg hR0]
        set srv' := uniformAverage ((R.map (fun c => (c, up c))).map Prod.snd) with hsrv'
        have hmean : srv' = (1 / (R.length : ℝ)) • (R.map up).sum := by
          rw [hsrv', uniformAverage_eq]; simp [List.map_map, Function.comp_def]
        have hac4 : net4.activeCache = some act := by rw [ac4]; exact a1
        obtain ⟨net5, h5, i5, ac5, t5, b5, c5, d5⟩ := broadcast_spec w hf act act (fun c hc => ⟨hc, hactc c hc⟩) srv' .centerUpdate net4 i4 hac4
        set s5 : FSys A E Ω (PdCli E) E := ⟨net5, srv', cli', cnt⟩ with hs5
        have hsend : FedAlg.sendF w n server server (.many act) srv' .centerUpdate
            (⟨net4, srv', cli', cnt⟩ : FSys A E Ω (PdCli E) E) = .ok s5 := by
          simp [FedAlg.sendF, h5, hs5]
        simp only [bind, Except.bind]
        rw [hsend]
        simp only
        obtain ⟨cli6, h6, hc6⟩ := pd_adopt_loop (server := server) act hactnd s5
        rw [h6]
        have hx6 : ∀ c, (cli6 c).x = (cli' c).x ∧ (cli6 c).lam = (cli' c).lam := by
          intro c
          rw [hc6 c]
          by_cases hc : c ∈ act <;> simp [hc, hs5]
        have hcen : ∀ c ∈ act, (cli6 c).center = ((net5.inbox c).abs .centerUpdate server).getD (cli' c).center := by
          intro c hc
          rw [hc6 c, if_pos hc]
        refine ⟨_, act, R, up, true, rfl, hactnd, hactc, hall, fun _ => ⟨ω', hbt.symm⟩, hcount, ?_, ?_, ?_, ?_,
          ?_, fun c hc h => Or.inr (hlost c hc h), by simp, fun h => absurd h hR0, fun _ => hmean, ?_, ?_⟩
        · intro c hc
          have := hc6 c
          rw [if_neg hc] at this
          simp only [this, hs5]; exact hidle c hc
        · intro c hc; exact ⟨ωs c, by rw [(hx6 c).1, hout c hc]; rfl⟩
        · intro c hc
          simp only
          rw [(hx6 c).1, (hx6 c).2, hout c hc]; rfl
        · apply hheard
          intro ch a
          simp only [hs5]
          rw [b5 server (fun e => hf.server_not_client (hactc _ e))]
        · intro c hc
          obtain ⟨q1, q2⟩ := hfrom c hc
          refine ⟨q1, ?_⟩
          simp only
          rw [(hx6 c).1, (hx6 c).2]; exact q2
        · intro c m hc h
          rw [get_ok_iff] at h
          simp only [hs5] at h
          have hca : c ∈ act := by
            by_contra hca
            rw [b5 c hca, hcl4 c hc] at h; cases h
          refine ⟨hca, hR0, ?_, ?_⟩
          · rcases d5 c hca with ⟨v', ha, hn, _⟩ | ⟨hn, _⟩
            · rw [hn] at h
              cases h
              exact ha
            · rw [hn, hcl4 c hc] at h; cases h
          · simp only
            rw [hcen c hca, h]; rfl
        · intro c hc hno
          have hnone : (net5.inbox c).abs .centerUpdate server = none := by
            by_contra hne
            obtain ⟨m, hm⟩ := Option.ne_none_iff_exists'.1 hne
            exact hno ⟨m, by rw [get_ok_iff]; exact hm⟩
          constructor
          · simp only
            rw [hcen c hc, hnone, (hx6 c).1, (hx6 c).2, hout c hc]; rfl
          · right
            rcases d5 c hc with ⟨v', ha, hn, _⟩ | ⟨_, h⟩
            · rw [hn] at hnone; cases hnone
            · exact h
    · have hbf : b.1 = false := by simpa using hbt
      simp only [hbf, Bool.false_eq_true, if_false]
      refine ⟨_, act, [], fun _ => 0, false, rfl, hactnd, hactc, hall, fun _ => ⟨ω', hbf.symm⟩, hcount, hidle, ?_, ?_, ⟨by simp, ?_⟩,
          by simp, fun _ _ _ => Or.inl rfl, by simp, fun _ => rfl, by simp, ?_, ?_⟩
      · intro c hc; exact ⟨ωs c, by simp only [hout c hc, pdOut]⟩
      · intro c hc; simp only [hout c hc, pdOut]
      · intro c v
        rw [get_ok_iff]
        simp [hin2, hempty server hsn]
      · intro c m hc h
        rw [get_ok_iff] at h
        simp [hin2, hempty c (hcn c hc)] at h
      · intro c hc _
        refine ⟨?_, Or.inl rfl⟩
        simp only [hout c hc, pdOut]

/-! ### runs -/

theorem pd_loop_indep (G : Grad A Ω E) (γ η : ℝ) (K : A → Nat) (coin : Ω → Bool × Ω) (w : World A E Ω) (x0 : A → E) (N N' : Int) (m : Nat)
    (k : Int) (s : FSys A E Ω (PdCli E) E) :
    (pdOps G γ η K coin server w n x0).loop N m k s = (pdOps G γ η K coin server w n x0).loop N' m k s := by
  induction m generalizing k s with
  | zero => rfl
  | succ m ih =>
    simp only [RunOps.loop]
    have : (pdOps G γ η K coin server w n x0).body N k s = (pdOps G γ η K coin server w n x0).body N' k s := rfl
    rw [this]
    congr 1
    funext s'
    exact ih _ _

theorem pd_loop_snoc (G : Grad A Ω E) (γ η : ℝ) (K : A → Nat) (coin : Ω → Bool × Ω) (w : World A E Ω) (x0 : A → E) (N : Int) (m : Nat) (k : Int)
    (s : FSys A E Ω (PdCli E) E) :
    (pdOps G γ η K coin server w n x0).loop N (m + 1) k s =
      ((pdOps G γ η K coin server w n x0).loop N m k s).bind (fun s' => pdIter G γ η K coin server w n (k + m) s') := by
  induction m generalizing k s with
  | zero =>
    simp only [RunOps.loop, RunOps.body, pdOps, bind, Except.bind, Nat.cast_zero, add_zero, pdIter]
    cases pdStep G γ η K coin server w n k { s with net := s.net.step n k } <;> rfl
  | succ m ih =>
    rw [RunOps.loop]
    simp only [bind, Except.bind]
    cases hb : (pdOps G γ η K coin server w n x0).body N k s with
    | error e => simp [RunOps.loop, hb, bind, Except.bind]
    | ok s' =>
      simp only
      rw [ih]
      rw [RunOps.loop]
      simp only [hb, bind, Except.bind]
      have : k + 1 + (m : Int) = k + ((m + 1 : Nat) : Int) := by push_cast; ring
      rw [this]

theorem pd_after_succ (G : Grad A Ω E) (γ η : ℝ) (K : A → Nat) (coin : Ω → Bool × Ω) (w : World A E Ω) (x0 : A → E)
    (s : FSys A E Ω (PdCli E) E) (k : Nat) :
    pdAfter G γ η K coin server w n x0 s (k + 1) = (pdAfter G γ η K coin server w n x0 s k).bind
      (fun s' => pdIter G γ η K coin server w n k s') := by
  unfold pdAfter RunOps.run
  have h1 : ¬ ((0 : Int) < 0 ∨ (0 : Int) > ((k + 1 : Nat) : Int)) := by omega
  have h2 : ¬ ((0 : Int) < 0 ∨ (0 : Int) > ((k : Nat) : Int)) := by omega
  rw [if_neg h1, if_neg h2]
  simp only [if_true, bind, Except.bind, pdOps, sub_zero, Int.toNat_natCast]
  have := pd_loop_snoc (n := n) (server := server) G γ η K coin w x0 ((k + 1 : Nat) : Int) k 0 (pdInit n server x0 s)
  simp only [pdOps, zero_add] at this
  rw [this]
  have h3 := pd_loop_indep (n := n) (server := server) G γ η K coin w x0 ((k + 1 : Nat) : Int) ((k : Nat) : Int) k 0
    (pdInit n server x0 s)
  simp only [pdOps] at h3
  rw [h3]
  rfl

theorem pd_after_induction (G : Grad A Ω E) (γ η : ℝ) (K : A → Nat) (coin : Ω → Bool × Ω) (w : World A E Ω) (x0 : A → E)
    (s : FSys A E Ω (PdCli E) E) (P : Nat → FSys A E Ω (PdCli E) E → Prop) (h0 : P 0 (pdInit n server x0 s))
    (hs : ∀ (k : Nat) s, P k s → ∃ s', pdIter G γ η K coin server w n k s = .ok s' ∧ P (k + 1) s') (k : Nat) :
    ∃ s', pdAfter G γ η K coin server w n x0 s k = .ok s' ∧ P k s' := by
  induction k with
  | zero => exact ⟨_, rfl, h0⟩
  | succ k ih =>
    obtain ⟨s1, h1, p1⟩ := ih
    obtain ⟨s2, h2, p2⟩ := hs k s1 p1
    refine ⟨s2, ?_, p2⟩
    rw [pd_after_succ, h1]; exact h2

end
end Verif.Fed
