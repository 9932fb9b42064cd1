import Verif.Props.Fed
set_option linter.unusedSectionVars false
/-!
# C32 (SCAFFOLD) and C33 (FedDyn): server state versus client states, under loss and partial participation
-/
namespace Verif.Props
open Verif Verif.Fed NetState

section
variable {A V Ω α σ E : Type} [DecidableEq A] [AddCommGroup E] [Module ℝ E]
variable {n : Net A} {server : A} {clients : List A}

/-- sum over a sub-list without repetitions, as a sum over the whole list -/
theorem sum_sub_list (clients R : List A) (hc : clients.Nodup) (hR : R.Nodup) (hs : ∀ c ∈ R, c ∈ clients) (f : A → E) :
    (R.map f).sum = (clients.map (fun c => if c ∈ R then f c else 0)).sum := by
  have h : ∀ (l : List A), (l.map (fun c => if c ∈ R then f c else 0)).sum = ((l.filter (fun c => c ∈ R)).map f).sum := by
    intro l
    induction l with
    | nil => rfl
    | cons a t ih =>
      by_cases ha : a ∈ R
      · simp [List.filter_cons, ha, ih]
      · simp [List.filter_cons, ha, ih]
  rw [h]
  have hp : R.Perm (clients.filter (fun c => c ∈ R)) :=
    (List.perm_ext_iff_of_nodup hR (hc.filter _)).2 (fun c => by
      simp only [List.mem_filter, decide_eq_true_eq]
      exact ⟨fun h => ⟨hs c h, h⟩, fun h => h.2⟩)
  exact (hp.map f).sum_eq

theorem sum_filter_ite (l : List A) (p : A → Prop) [DecidablePred p] (f : A → E) :
    ((l.filter p).map f).sum = (l.map (fun c => if p c then f c else 0)).sum := by
  induction l with
  | nil => rfl
  | cons a t ih =>
    by_cases ha : p a
    · simp [List.filter_cons, ha, ih]
    · simp [List.filter_cons, ha, ih]

theorem sum_map_sub (l : List A) (f g : A → E) : (l.map (fun c => f c - g c)).sum = (l.map f).sum - (l.map g).sum := by
  induction l with
  | nil => simp
  | cons a t ih => simp only [List.map_cons, List.sum_cons, ih]; abel

theorem IsFed.clients_nodup (hf : IsFed n server clients) : clients.Nodup := by
  have := hf.wf.nodup
  rw [hf.nodes, List.nodup_cons] at this
  exact this.2

/-- bookkeeping shared by C32 and C33: a server quantity that moves by the mean of the changes `R` reported, and clients
that change only if ... -/
theorem drift_step (hc : clients.Nodup) (R : List A) (hR : R.Nodup) (hs : ∀ c ∈ R, c ∈ clients) (old new : A → E) (h h' : E)
    (hh : h' = h + (1 / (clients.length : ℝ)) • (R.map (fun c => new c - old c)).sum) :
    h' - (1 / (clients.length : ℝ)) • (clients.map new).sum =
      (h - (1 / (clients.length : ℝ)) • (clients.map old).sum) -
        (1 / (clients.length : ℝ)) • ((clients.filter (fun c => c ∉ R)).map (fun c => new c - old c)).sum := by
  have e1 : (clients.map (fun c => new c - old c)).sum =
      (R.map (fun c => new c - old c)).sum + ((clients.filter (fun c => c ∉ R)).map (fun c => new c - old c)).sum := by
    rw [sum_sub_list clients R hc hR hs, sum_filter_ite, ← List.sum_map_add]
    congr 1
    apply List.map_congr_left
    intro c _
    by_cases hcR : c ∈ R <;> simp [hcR]
  rw [sum_map_sub] at e1
  have e2 : (clients.map new).sum = (clients.map old).sum + ((R.map (fun c => new c - old c)).sum +
      ((clients.filter (fun c => c ∉ R)).map (fun c => new c - old c)).sum) := by rw [← e1]; abel
  rw [hh, e2]
  simp only [smul_add]
  abel

/-! ## C32 -/

/-- server control variate minus the mean of the client control variates -/
noncomputable def scafDrift (clients : List A) (s : FSys A V Ω (ScafCli E) (ScafSrv E)) : E :=
  s.srv.c - (1 / (clients.length : ℝ)) • (clients.map (fun c => (s.cli c).c_i)).sum

/-- a message of `c` on channel `ch` is in the server's inbox -/
def Uploaded (s : FSys A V Ω α σ) (server c : A) (ch : FChan) : Prop := ∃ v, (s.net.inbox server).get c ch = .ok v

theorem uploaded_iff (s : FSys A V Ω α σ) (server c : A) (ch : FChan) :
    Uploaded s server c ch ↔ ((s.net.inbox server).abs ch c).isSome := by
  simp only [Uploaded, get_ok_iff, Option.isSome_iff_exists]

theorem scaf_round (G : Grad A Ω E) (η ηg : ℝ) (K : Nat) (c0 : A → E)
    (w : World A (Arr E) Ω) (hf : IsFed n server clients) (hup : ServerUp w server) (hex : ∀ c ∈ clients, Exact w c)
    (sel : Select A Ω) (hsel : SelOK sel) (k : Int) (s : FSys A (Arr E) Ω (ScafCli E) (ScafSrv E)) :
    ∃ s', ∃ R selected P : List A, ∃ bc, ∃ ωs : A → Ω, iter (scaffold G η ηg K c0 server) sel server w n k s = .ok s' ∧
      Round (scaffold G η ηg K c0 server) sel w server clients { s with net := s.net.step n k } s.srv s'.net s'.cli s'.nSelected
        selected P bc ωs ∧
      R.Nodup ∧ (∀ c ∈ R, c ∈ P) ∧
      (∀ c, c ∈ R ↔ Uploaded s' server c .modelDelta ∧ Uploaded s' server c .controlDelta) ∧
      s'.srv.c = s.srv.c + (1 / (clients.length : ℝ)) • (R.map (fun c => (s'.cli c).c_i - (s.cli c).c_i)).sum ∧
      s'.srv.x = s.srv.x + ηg • (1 / (R.length : ℝ)) • (R.map (fun c => (s'.cli c).x - (bc c).row0)).sum := by
  obtain ⟨srv1, net', cli', nSel', selected, P, bc, ωs, hr, hi⟩ := iter_spec (scaffold G η ηg K c0 server)
    (fun _ _ _ _ => by simp [scaffold]) (fun b srv => by simp [scaffold]) w hf hup sel hsel k s
  have hsrv : srv1 = s.srv := hr.prep
  subst hsrv
  set R := P.filter (fun c => ((net'.inbox server).abs .modelDelta c).isSome && ((net'.inbox server).abs .controlDelta c).isSome)
    with hR
  have hRP : ∀ c ∈ R, c ∈ P := fun c hc => (List.mem_filter.1 hc).1
  have hPc : ∀ c ∈ P, c ∈ clients := fun c hc => hr.sel_client c (hr.sub c hc)
  have hm : ∀ c ∈ R, ∀ v, (net'.inbox server).abs .modelDelta c = some v → v.row0 = (cli' c).x - (bc c).row0 := by
    intro c hc v hv
    rcases hr.uploads c (hRP c hc) (.modelDelta, _) (by simp [scaffold]; rfl) with ⟨v', ha, hn, _⟩ | ⟨hn, _⟩
    · simp only at hn; rw [hv] at hn; cases hn
      rw [ha.exact (hex c (hPc c (hRP c hc))), hr.cli c, if_pos (hRP c hc)]
      simp [scaffold, Arr.single]
    · simp only at hn; rw [hv] at hn; cases hn
  have hcd : ∀ c ∈ R, ∀ v, (net'.inbox server).abs .controlDelta c = some v → v.row0 = (cli' c).c_i - (s.cli c).c_i := by
    intro c hc v hv
    rcases hr.uploads c (hRP c hc) (.controlDelta, _) (by simp [scaffold]; rfl) with ⟨v', ha, hn, _⟩ | ⟨hn, _⟩
    · simp only at hn; rw [hv] at hn; cases hn
      rw [ha.exact (hex c (hPc c (hRP c hc))), hr.cli c, if_pos (hRP c hc)]
      simp [scaffold, Arr.single]
    · simp only at hn; rw [hv] at hn; cases hn
  have hall : ∀ ch : FChan, (ch = .modelDelta ∨ ch = .controlDelta) → ∀ f : A → E,
      (∀ c ∈ R, ∀ v, (net'.inbox server).abs ch c = some v → v.row0 = f c) →
      (receivedFrom (net'.inbox server) ch R).map (fun p => p.2.row0) = R.map f := by
    intro ch hch f hfv
    rw [receivedFrom_eq _ _ _ (fun c => ((net'.inbox server).abs ch c).getD ⟨0, 0, 0⟩) (fun c _ v hv => by simp [hv])]
    have : R.filter (fun c => ((net'.inbox server).abs ch c).isSome) = R := by
      apply List.filter_eq_self.2
      intro c hc
      have h2 := (List.mem_filter.1 hc).2
      simp only [Bool.and_eq_true] at h2
      rcases hch with rfl | rfl
      · exact h2.1
      · exact h2.2
    rw [this, List.map_map]
    apply List.map_congr_left
    intro c hc
    have hsome : ((net'.inbox server).abs ch c).isSome := by
      have h2 := (List.mem_filter.1 hc).2
      simp only [Bool.and_eq_true] at h2
      rcases hch with rfl | rfl
      · exact h2.1
      · exact h2.2
    obtain ⟨v, hv⟩ := Option.isSome_iff_exists.1 hsome
    simp only [Function.comp_def, hv, Option.getD_some]
    exact hfv c hc v hv
  have hagg : (scaffold G η ηg K c0 server).aggregate clients (net'.inbox server) P s.srv = .ok
      ⟨s.srv.x + ηg • (1 / (R.length : ℝ)) • (R.map (fun c => (cli' c).x - (bc c).row0)).sum,
       s.srv.c + (1 / (clients.length : ℝ)) • (R.map (fun c => (cli' c).c_i - (s.cli c).c_i)).sum⟩ := by
    simp only [scaffold, Inbox.get?_byChannel]
    rw [← hR]
    by_cases he : R = []
    · simp [he]
    · rw [if_neg he, hall .modelDelta (Or.inl rfl) _ hm, hall .controlDelta (Or.inr rfl) _ hcd, uniformAverage_eq,
        uniformAverage_eq, List.length_map, List.length_map, smul_smul ((R.length : ℝ) / _)]
      have : (R.length : ℝ) ≠ 0 := by
        have : 0 < R.length := List.length_pos_iff.2 he
        positivity
      rw [show (R.length : ℝ) / (clients.length : ℝ) * (1 / (R.length : ℝ)) = 1 / (clients.length : ℝ) by
        field_simp]
  refine ⟨_, R, selected, P, bc, ωs, by rw [hi, hagg]; rfl, hr, hr.nodup.filter _, hRP, ?_, rfl, rfl⟩
  intro c
  simp only [uploaded_iff]
  constructor
  · intro hc
    have := (List.mem_filter.1 hc).2
    simpa only [Bool.and_eq_true] using this
  · rintro ⟨h1, h2⟩
    exact List.mem_filter.2 ⟨(hr.only .modelDelta c (by intro e; rw [e] at h1; cases h1)).1, by simp [h1, h2]⟩

/-- One SCAFFOLD iteration, for every participation and loss pattern (uploads that arrive are undistorted): the relation
between the server control variate and the mean of the client control variates moves exactly by the changes of those clients
whose two uploads did not both arrive. -/
theorem C32_drift (G : Grad A Ω E) (η ηg : ℝ) (K : Nat) (c0 : A → E)
    (w : World A (Arr E) Ω) (hf : IsFed n server clients) (hup : ServerUp w server) (hex : ∀ c ∈ clients, Exact w c)
    (sel : Select A Ω) (hsel : SelOK sel) (k : Int) (s : FSys A (Arr E) Ω (ScafCli E) (ScafSrv E)) :
    ∃ s', iter (scaffold G η ηg K c0 server) sel server w n k s = .ok s' ∧ ∃ R : List A,
      (∀ c, c ∈ R ↔ Uploaded s' server c .modelDelta ∧ Uploaded s' server c .controlDelta) ∧
      scafDrift clients s' = scafDrift clients s - (1 / (clients.length : ℝ)) •
        ((clients.filter (fun c => c ∉ R)).map (fun c => (s'.cli c).c_i - (s.cli c).c_i)).sum := by
  obtain ⟨s', R, selected, P, bc, ωs, h1, hr, hnd, hRP, hiff, hc, hx⟩ := scaf_round G η ηg K c0 w hf hup hex sel hsel k s
  refine ⟨s', h1, R, hiff, ?_⟩
  exact drift_step hf.clients_nodup R hnd (fun c h => hr.sel_client c (hr.sub c (hRP c h))) (fun c => (s.cli c).c_i)
    (fun c => (s'.cli c).c_i) s.srv.c s'.srv.c hc

/-- If no upload is lost (broadcasts may be), one iteration leaves the relation as it was: with partial participation, any
selection scheme, any gradients. -/
theorem C32_preserved (G : Grad A Ω E) (η ηg : ℝ) (K : Nat) (c0 : A → E)
    (w : World A (Arr E) Ω) (hf : IsFed n server clients) (hup : ServerUp w server)
    (hex : ∀ c ∈ clients, Exact w c ∧ Lossless w c)
    (sel : Select A Ω) (hsel : SelOK sel) (k : Int) (s : FSys A (Arr E) Ω (ScafCli E) (ScafSrv E)) :
    ∃ s', iter (scaffold G η ηg K c0 server) sel server w n k s = .ok s' ∧ scafDrift clients s' = scafDrift clients s := by
  obtain ⟨s', R, selected, P, bc, ωs, h1, hr, hnd, hRP, hiff, hc, hx⟩ := scaf_round G η ηg K c0 w hf hup
    (fun c h => (hex c h).1) sel hsel k s
  refine ⟨s', h1, ?_⟩
  have := drift_step hf.clients_nodup R hnd (fun c h => hr.sel_client c (hr.sub c (hRP c h))) (fun c => (s.cli c).c_i)
    (fun c => (s'.cli c).c_i) s.srv.c s'.srv.c hc
  unfold scafDrift
  rw [this]
  have hz : ((clients.filter (fun c => c ∉ R)).map (fun c => (s'.cli c).c_i - (s.cli c).c_i)).sum = 0 := by
    apply List.sum_eq_zero
    intro x hx
    obtain ⟨c, hcm, rfl⟩ := List.mem_map.1 hx
    obtain ⟨hcc, hcR⟩ := List.mem_filter.1 hcm
    have hcR : c ∉ R := by simpa using hcR
    have hcP : c ∉ P := by
      intro hcP
      apply hcR
      rw [hiff, uploaded_iff, uploaded_iff]
      constructor
      · obtain ⟨v, _, hv⟩ := (hr.uploads c hcP (.modelDelta, _) (by simp [scaffold]; rfl)).lossless (hex c hcc).2
        simp only at hv; rw [hv]; rfl
      · obtain ⟨v, _, hv⟩ := (hr.uploads c hcP (.controlDelta, _) (by simp [scaffold]; rfl)).lossless (hex c hcc).2
        simp only at hv; rw [hv]; rfl
    rw [hr.cli c, if_neg hcP]; simp
  rw [hz]; simp

/-- ... hence in every run started with a consistent server control variate (the default: zeros, or the inferred mean of
the clients' initial control variates) the relation holds after every number of rounds. -/
theorem C32_consistent (G : Grad A Ω E) (η ηg : ℝ) (K : Nat) (c0 : A → E)
    (hc0 : c0 server = (1 / (clients.length : ℝ)) • (clients.map c0).sum)
    (w : World A (Arr E) Ω) (hf : IsFed n server clients) (hup : ServerUp w server)
    (hex : ∀ c ∈ clients, Exact w c ∧ Lossless w c)
    (sel : Select A Ω) (hsel : SelOK sel) (x0 : A → Arr E) (s : FSys A (Arr E) Ω (ScafCli E) (ScafSrv E)) (k : Nat) :
    ∃ s', (scaffold G η ηg K c0 server).after sel server w n x0 s k = .ok s' ∧
      s'.srv.c = (1 / (clients.length : ℝ)) • (clients.map (fun c => (s'.cli c).c_i)).sum := by
  obtain ⟨s', h1, h2⟩ := after_induction (n := n) (server := server) (scaffold G η ηg K c0 server) sel w x0 s
    (fun _ s' => scafDrift clients s' = 0) (by
      unfold scafDrift
      simp only [FedAlg.initialize_, scaffold]
      rw [hc0, sub_self])
    (fun k s1 ih => by
      obtain ⟨s2, h2, h3⟩ := C32_preserved G η ηg K c0 w hf hup hex sel hsel k s1
      exact ⟨s2, h2, h3.trans ih⟩) k
  exact ⟨s', h1, sub_eq_zero.1 h2⟩

/-- A loss is never repaired: whatever the discrepancy is at some point, loss-free rounds from there on keep it. -/
theorem C32_loss_is_permanent (G : Grad A Ω E) (η ηg : ℝ) (K : Nat) (c0 : A → E)
    (w : World A (Arr E) Ω) (hf : IsFed n server clients) (hup : ServerUp w server)
    (hex : ∀ c ∈ clients, Exact w c ∧ Lossless w c) (sel : Select A Ω) (hsel : SelOK sel)
    (s : FSys A (Arr E) Ω (ScafCli E) (ScafSrv E)) (ks : List Int) :
    ∃ s', ks.foldlM (fun s k => iter (scaffold G η ηg K c0 server) sel server w n k s) s = .ok s' ∧
      scafDrift clients s' = scafDrift clients s := by
  induction ks generalizing s with
  | nil => exact ⟨s, rfl, rfl⟩
  | cons k t ih =>
    obtain ⟨s1, h1, d1⟩ := C32_preserved G η ηg K c0 w hf hup hex sel hsel k s
    obtain ⟨s2, h2, d2⟩ := ih s1
    refine ⟨s2, ?_, d2.trans d1⟩
    rw [List.foldlM_cons, h1]
    exact h2

/-- A lost upload does break the relation: all clients participate, one local step, the uploads of `bad` are lost and those of
the others arrive. After the first round from zero control variates the discrepancy is `-(1/N) ∇f_bad(x₀)`. -/
theorem C32_lost_upload_breaks (G : Grad A Ω E) (g : A → E → E) (hg : ∀ c x ω, (G c x ω).1 = g c x) (η ηg : ℝ) (hη : η ≠ 0)
    (w : World A (Arr E) Ω) (hf : IsFed n server clients) (hup : ServerUp w server)
    (hsv : Exact w server ∧ Lossless w server) (hact : ∀ c ∈ clients, ∀ it ω, (w.isActive c it ω).1 = true)
    (bad : A) (hbad : bad ∈ clients) (hex : ∀ c ∈ clients, Exact w c ∧ (c ≠ bad → Lossless w c))
    (hdrop : AlwaysDropped w bad)
    (x0 : A → Arr E) (s : FSys A (Arr E) Ω (ScafCli E) (ScafSrv E)) :
    ∃ s', (scaffold G η ηg 1 (fun _ => 0) server).after none server w n x0 s 1 = .ok s' ∧
      s'.srv.c - (1 / (clients.length : ℝ)) • (clients.map (fun c => (s'.cli c).c_i)).sum =
        -((1 / (clients.length : ℝ)) • g bad (x0 server).row0) := by
  rw [after_succ, after_zero]
  obtain ⟨s', R, selected, P, bc, ωs, h1, hr, hnd, hRP, hiff, hc, hx⟩ := scaf_round G η ηg 1 (fun _ => 0) w hf hup
    (fun c h => (hex c h).1) none (fun f e => by cases e) 0
    ((scaffold G η ηg 1 (fun _ => 0) server).initialize_ n server x0 s)
  refine ⟨s', h1, ?_⟩
  have hsel : selected = clients := hr.all_active rfl hact
  have hP : ∀ c ∈ clients, c ∈ P := by
    intro c hc
    by_contra hcP
    obtain ⟨ω, hω⟩ := hr.missed c (by rw [hsel]; exact hc) hcP
    rw [hsv.2 ω] at hω; cases hω
  have hRiff : ∀ c ∈ clients, c ∈ R ↔ c ≠ bad := by
    intro c hcc
    rw [hiff, uploaded_iff, uploaded_iff]
    constructor
    · rintro ⟨h1, _⟩ rfl
      obtain ⟨v, hv⟩ := Option.isSome_iff_exists.1 h1
      have := hr.uploads c (hP c hcc) (.modelDelta, _) (by simp [scaffold]; rfl)
      simp only at this
      rw [hv] at this
      exact absurd (this.dropped hdrop) (by simp)
    · intro hne
      have hl := (hex c hcc).2 hne
      constructor
      · obtain ⟨v, _, hv⟩ := (hr.uploads c (hP c hcc) (.modelDelta, _) (by simp [scaffold]; rfl)).lossless hl
        simp only at hv; rw [hv]; rfl
      · obtain ⟨v, _, hv⟩ := (hr.uploads c (hP c hcc) (.controlDelta, _) (by simp [scaffold]; rfl)).lossless hl
        simp only at hv; rw [hv]; rfl
  have hd := drift_step hf.clients_nodup R hnd (fun c h => hr.sel_client c (hr.sub c (hRP c h))) (fun _ => (0 : E))
    (fun c => (s'.cli c).c_i) 0 s'.srv.c hc
  simp only [sub_zero] at hd
  rw [hd]
  have hfil : clients.filter (fun c => c ∉ R) = [bad] := by
    have hnd := (hf.clients_nodup).filter (fun c => decide (c ∉ R))
    have hmem : ∀ c, c ∈ clients.filter (fun c => decide (c ∉ R)) ↔ c ∈ [bad] := by
      intro c
      simp only [List.mem_filter, decide_eq_true_eq, List.mem_singleton]
      constructor
      · rintro ⟨h1, h2⟩
        by_contra hne
        exact h2 ((hRiff c h1).2 hne)
      · rintro rfl
        exact ⟨hbad, fun h => ((hRiff c hbad).1 h) rfl⟩
    exact List.perm_singleton.1 ((List.perm_ext_iff_of_nodup hnd (by simp)).2 hmem)
  rw [hfil]
  have hci : (s'.cli bad).c_i = g bad (x0 server).row0 := by
    rw [hr.cli bad, if_pos (hP bad hbad)]
    have hb : bc bad = Arr.stack (x0 server).row0 0 := (hr.heard bad (hP bad hbad)).exact hsv.1
    simp only [scaffold, FedAlg.initialize_, hb, Arr.stack, localScaffold, iterW, hg]
    simp [smul_smul, hη]
  simp [hci]

/-! ## C33 -/

/-- FedDyn's server vector minus the mean of the clients' dynamic states -/
noncomputable def dynDrift (clients : List A) (s : FSys A V Ω (DynCli E) (DynSrv E)) : E :=
  s.srv.h - (1 / (clients.length : ℝ)) • (clients.map (fun c => (s.cli c).g)).sum

theorem dyn_round (G : Grad A Ω E) (η α : ℝ) (K : Nat)
    (w : World A E Ω) (hf : IsFed n server clients) (hup : ServerUp w server) (hex : ∀ a ∈ server :: clients, Exact w a)
    (sel : Select A Ω) (hsel : SelOK sel) (k : Int) (s : FSys A E Ω (DynCli E) (DynSrv E)) :
    ∃ s', ∃ R selected P : List A, ∃ bc, ∃ ωs : A → Ω, iter (fedDyn G η α K) sel server w n k s = .ok s' ∧
      Round (fedDyn G η α K) sel w server clients { s with net := s.net.step n k } s.srv s'.net s'.cli s'.nSelected
        selected P bc ωs ∧
      R.Nodup ∧ (∀ c ∈ R, c ∈ P) ∧ (∀ c, c ∈ R ↔ Uploaded s' server c .dflt) ∧
      s'.srv.h = s.srv.h + (1 / (clients.length : ℝ)) • (R.map (fun c => (s'.cli c).g - (s.cli c).g)).sum ∧
      (∀ c ∈ P, (s'.cli c).g = (s.cli c).g - α • ((s'.cli c).x - s.srv.x)) ∧
      (R ≠ [] → s'.srv.x = (1 / (R.length : ℝ)) • (R.map (fun c => (s'.cli c).x)).sum - (1 / α) • s'.srv.h) ∧
      (R = [] → s'.srv = s.srv) := by
  obtain ⟨srv1, net', cli', nSel', selected, P, bc, ωs, hr, hi⟩ := iter_spec (fedDyn G η α K)
    (fun _ _ _ _ => by simp [fedDyn]) (fun b srv => by simp [fedDyn, receivedFrom]) w hf hup sel hsel k s
  have hsrv : srv1 = s.srv := hr.prep
  subst hsrv
  have hPc : ∀ c ∈ P, c ∈ clients := fun c hc => hr.sel_client c (hr.sub c hc)
  have hbc : ∀ c ∈ P, bc c = s.srv.x := fun c hc => (hr.heard c hc).exact (hex server (by simp))
  have hg : ∀ c ∈ P, (cli' c).g = (s.cli c).g - α • ((cli' c).x - s.srv.x) := by
    intro c hc
    rw [hr.cli c, if_pos hc]
    simp only [fedDyn, hbc c hc]
  set R := P.filter (fun c => ((net'.inbox server).abs .dflt c).isSome) with hR
  have hRP : ∀ c ∈ R, c ∈ P := fun c hc => (List.mem_filter.1 hc).1
  have hrec : receivedFrom (net'.inbox server) .dflt P = R.map (fun c => (c, (cli' c).x)) := by
    apply receivedFrom_eq
    intro c hc v hv
    rcases hr.uploads c hc (.dflt, _) (by simp [fedDyn]; rfl) with ⟨v', ha, hn, _⟩ | ⟨hn, _⟩
    · simp only at hn; rw [hv] at hn; cases hn
      rw [ha.exact (hex c (by simp [hPc c hc])), hr.cli c, if_pos hc]
      rfl
    · simp only at hn; rw [hv] at hn; cases hn
  have hsum : (R.map (fun c => (cli' c).g - (s.cli c).g)).sum = -(α • (R.map (fun c => (cli' c).x - s.srv.x)).sum) := by
    rw [List.map_congr_left (fun c hc => by rw [hg c (hRP c hc)] :
      ∀ c ∈ R, (cli' c).g - (s.cli c).g = (s.cli c).g - α • ((cli' c).x - s.srv.x) - (s.cli c).g)]
    generalize R = l
    induction l with
    | nil => simp
    | cons a t ih => simp only [List.map_cons, List.sum_cons, ih, smul_add]; abel
  set h' := s.srv.h + (1 / (clients.length : ℝ)) • (R.map (fun c => (cli' c).g - (s.cli c).g)).sum with hh'
  have hagg : (fedDyn G η α K).aggregate clients (net'.inbox server) P s.srv = .ok
      (if R = [] then s.srv else ⟨(1 / (R.length : ℝ)) • (R.map (fun c => (cli' c).x)).sum - (1 / α) • h', h'⟩) := by
    simp only [fedDyn, hrec, List.map_eq_nil_iff]
    by_cases he : R = []
    · simp [he]
    · simp only [he, if_false, List.map_map, Function.comp_def, uniformAverage_eq, List.length_map]
      have : s.srv.h - (1 / (clients.length : ℝ)) • α • List.foldl (fun acc m => acc + (m - s.srv.x)) 0
          (List.map (fun x => (cli' x).x) R) = h' := by
        rw [foldl_add_eq (fun m => m - s.srv.x), zero_add, hh', hsum, List.map_map]
        simp only [Function.comp_def, smul_neg]
        abel
      rw [this]
  refine ⟨⟨net', if R = [] then s.srv else ⟨(1 / (R.length : ℝ)) • (R.map (fun c => (cli' c).x)).sum - (1 / α) • h', h'⟩,
    cli', nSel'⟩, R, selected, P, bc, ωs, by rw [hi, hagg]; rfl, hr, hr.nodup.filter _, hRP, ?_, ?_, hg, ?_, ?_⟩
  · intro c
    rw [uploaded_iff]
    constructor
    · intro hc; exact (List.mem_filter.1 hc).2
    · intro h; exact List.mem_filter.2 ⟨(hr.only .dflt c (by intro e; simp [e] at h)).1, h⟩
  · by_cases he : R = [] <;> simp [he, hh']
  · intro he; simp [he]
  · intro he; simp [he]

/-- One FedDyn iteration with undistorted channels, any participation and losses: the relation between the server vector and
the mean of the clients' dynamic states moves exactly by the changes of the clients whose upload was lost. -/
theorem C33_drift (G : Grad A Ω E) (η α : ℝ) (K : Nat)
    (w : World A E Ω) (hf : IsFed n server clients) (hup : ServerUp w server) (hex : ∀ a ∈ server :: clients, Exact w a)
    (sel : Select A Ω) (hsel : SelOK sel) (k : Int) (s : FSys A E Ω (DynCli E) (DynSrv E)) :
    ∃ s', iter (fedDyn G η α K) sel server w n k s = .ok s' ∧ ∃ R : List A, (∀ c, c ∈ R ↔ Uploaded s' server c .dflt) ∧
      dynDrift clients s' = dynDrift clients s - (1 / (clients.length : ℝ)) •
        ((clients.filter (fun c => c ∉ R)).map (fun c => (s'.cli c).g - (s.cli c).g)).sum := by
  obtain ⟨s', R, selected, P, bc, ωs, h1, hr, hnd, hRP, hiff, hc, hg, hx, _⟩ := dyn_round G η α K w hf hup hex sel hsel k s
  exact ⟨s', h1, R, hiff, drift_step hf.clients_nodup R hnd (fun c h => hr.sel_client c (hr.sub c (hRP c h)))
    (fun c => (s.cli c).g) (fun c => (s'.cli c).g) s.srv.h s'.srv.h hc⟩

/-- If no upload is lost, one iteration leaves the relation as it was. -/
theorem C33_preserved (G : Grad A Ω E) (η α : ℝ) (K : Nat)
    (w : World A E Ω) (hf : IsFed n server clients) (hup : ServerUp w server) (hex : ∀ a ∈ server :: clients, Exact w a)
    (hl : ∀ c ∈ clients, Lossless w c)
    (sel : Select A Ω) (hsel : SelOK sel) (k : Int) (s : FSys A E Ω (DynCli E) (DynSrv E)) :
    ∃ s', iter (fedDyn G η α K) sel server w n k s = .ok s' ∧ dynDrift clients s' = dynDrift clients s := by
  obtain ⟨s', R, selected, P, bc, ωs, h1, hr, hnd, hRP, hiff, hc, hg, hx, _⟩ := dyn_round G η α K w hf hup hex sel hsel k s
  refine ⟨s', h1, ?_⟩
  have := drift_step hf.clients_nodup R hnd (fun c h => hr.sel_client c (hr.sub c (hRP c h)))
    (fun c => (s.cli c).g) (fun c => (s'.cli c).g) s.srv.h s'.srv.h hc
  unfold dynDrift
  rw [this]
  have hz : ((clients.filter (fun c => c ∉ R)).map (fun c => (s'.cli c).g - (s.cli c).g)).sum = 0 := by
    apply List.sum_eq_zero
    intro x hx
    obtain ⟨c, hcm, rfl⟩ := List.mem_map.1 hx
    obtain ⟨hcc, hcR⟩ := List.mem_filter.1 hcm
    have hcR : c ∉ R := by simpa using hcR
    have hcP : c ∉ P := by
      intro hcP
      apply hcR
      rw [hiff, uploaded_iff]
      obtain ⟨v, _, hv⟩ := (hr.uploads c hcP (.dflt, _) (by simp [fedDyn]; rfl)).lossless (hl c hcc)
      simp only at hv; rw [hv]; rfl
    rw [hr.cli c, if_neg hcP]; simp
  rw [hz]; simp

/-- In every run with undistorted channels and no lost upload (broadcasts may be lost, participation is arbitrary) FedDyn's
server vector is the mean of the clients' dynamic states after every number of rounds. -/
theorem C33_consistent (G : Grad A Ω E) (η α : ℝ) (K : Nat)
    (w : World A E Ω) (hf : IsFed n server clients) (hup : ServerUp w server) (hex : ∀ a ∈ server :: clients, Exact w a)
    (hl : ∀ c ∈ clients, Lossless w c) (sel : Select A Ω) (hsel : SelOK sel) (x0 : A → E)
    (s : FSys A E Ω (DynCli E) (DynSrv E)) (k : Nat) :
    ∃ s', (fedDyn G η α K).after sel server w n x0 s k = .ok s' ∧
      s'.srv.h = (1 / (clients.length : ℝ)) • (clients.map (fun c => (s'.cli c).g)).sum := by
  obtain ⟨s', h1, h2⟩ := after_induction (n := n) (server := server) (fedDyn G η α K) sel w x0 s
    (fun _ s' => dynDrift clients s' = 0) (by
      unfold dynDrift
      simp only [FedAlg.initialize_, fedDyn]
      simp)
    (fun k s1 ih => by
      obtain ⟨s2, h2, h3⟩ := C33_preserved G η α K w hf hup hex hl sel hsel k s1
      exact ⟨s2, h2, h3.trans ih⟩) k
  exact ⟨s', h1, sub_eq_zero.1 h2⟩

/-- A lost upload is never repaired. -/
theorem C33_loss_is_permanent (G : Grad A Ω E) (η α : ℝ) (K : Nat)
    (w : World A E Ω) (hf : IsFed n server clients) (hup : ServerUp w server) (hex : ∀ a ∈ server :: clients, Exact w a)
    (hl : ∀ c ∈ clients, Lossless w c) (sel : Select A Ω) (hsel : SelOK sel)
    (s : FSys A E Ω (DynCli E) (DynSrv E)) (ks : List Int) :
    ∃ s', ks.foldlM (fun s k => iter (fedDyn G η α K) sel server w n k s) s = .ok s' ∧
      dynDrift clients s' = dynDrift clients s := by
  induction ks generalizing s with
  | nil => exact ⟨s, rfl, rfl⟩
  | cons k t ih =>
    obtain ⟨s1, h1, d1⟩ := C33_preserved G η α K w hf hup hex hl sel hsel k s
    obtain ⟨s2, h2, d2⟩ := ih s1
    refine ⟨s2, ?_, d2.trans d1⟩
    rw [List.foldlM_cons, h1]
    exact h2

/-- All clients participate with one local step, the upload of `bad` is lost: after the first round the discrepancy is
`-(α η / N) ∇f_bad(x₀)`. -/
theorem C33_lost_upload_breaks (G : Grad A Ω E) (g : A → E → E) (hg : ∀ c x ω, (G c x ω).1 = g c x) (η α : ℝ)
    (w : World A E Ω) (hf : IsFed n server clients) (hup : ServerUp w server)
    (hex : ∀ a ∈ server :: clients, Exact w a) (hsv : Lossless w server)
    (hact : ∀ c ∈ clients, ∀ it ω, (w.isActive c it ω).1 = true)
    (bad : A) (hbad : bad ∈ clients) (hl : ∀ c ∈ clients, c ≠ bad → Lossless w c)
    (hdrop : AlwaysDropped w bad)
    (x0 : A → E) (s : FSys A E Ω (DynCli E) (DynSrv E)) :
    ∃ s', (fedDyn G η α 1).after none server w n x0 s 1 = .ok s' ∧
      s'.srv.h - (1 / (clients.length : ℝ)) • (clients.map (fun c => (s'.cli c).g)).sum =
        -((1 / (clients.length : ℝ)) • (α * η) • g bad (x0 server)) := by
  rw [after_succ, after_zero]
  obtain ⟨s', R, selected, P, bc, ωs, h1, hr, hnd, hRP, hiff, hc, hgP, hx, _⟩ := dyn_round G η α 1 w hf hup hex none
    (fun f e => by cases e) 0 ((fedDyn G η α 1).initialize_ n server x0 s)
  refine ⟨s', h1, ?_⟩
  have hsel : selected = clients := hr.all_active rfl hact
  have hP : ∀ c ∈ clients, c ∈ P := by
    intro c hc
    by_contra hcP
    obtain ⟨ω, hω⟩ := hr.missed c (by rw [hsel]; exact hc) hcP
    rw [hsv ω] at hω; cases hω
  have hRiff : ∀ c ∈ clients, c ∈ R ↔ c ≠ bad := by
    intro c hcc
    rw [hiff, uploaded_iff]
    constructor
    · rintro h1 rfl
      obtain ⟨v, hv⟩ := Option.isSome_iff_exists.1 h1
      have := hr.uploads c (hP c hcc) (.dflt, _) (by simp [fedDyn]; rfl)
      simp only at this
      rw [hv] at this
      exact absurd (this.dropped hdrop) (by simp)
    · intro hne
      obtain ⟨v, _, hv⟩ := (hr.uploads c (hP c hcc) (.dflt, _) (by simp [fedDyn]; rfl)).lossless (hl c hcc hne)
      simp only at hv; rw [hv]; rfl
  have hd := drift_step hf.clients_nodup R hnd (fun c h => hr.sel_client c (hr.sub c (hRP c h))) (fun _ => (0 : E))
    (fun c => (s'.cli c).g) 0 s'.srv.h hc
  simp only [sub_zero] at hd
  rw [hd]
  have hfil : clients.filter (fun c => c ∉ R) = [bad] := by
    have hnd := (hf.clients_nodup).filter (fun c => decide (c ∉ R))
    have hmem : ∀ c, c ∈ clients.filter (fun c => decide (c ∉ R)) ↔ c ∈ [bad] := by
      intro c
      simp only [List.mem_filter, decide_eq_true_eq, List.mem_singleton]
      constructor
      · rintro ⟨h1, h2⟩
        by_contra hne
        exact h2 ((hRiff c h1).2 hne)
      · rintro rfl
        exact ⟨hbad, fun h => ((hRiff c hbad).1 h) rfl⟩
    exact List.perm_singleton.1 ((List.perm_ext_iff_of_nodup hnd (by simp)).2 hmem)
  rw [hfil]
  have hci : (s'.cli bad).g = (α * η) • g bad (x0 server) := by
    rw [hr.cli bad, if_pos (hP bad hbad)]
    have hb : bc bad = x0 server := (hr.heard bad (hP bad hbad)).exact (hex server (by simp))
    simp only [fedDyn, FedAlg.initialize_, hb, localDyn, iterW, hg]
    simp [smul_smul]
  simp [hci]

end

/-! ### a world meeting the hypotheses: two clients, client 1's messages are always lost -/

/-- everything is ideal except that the messages of agent 1 are lost; there is no noise, so `add` is never used -/
def lossy1 (V : Type) : World Nat V Unit where
  isActive _ _ _ := (true, ())
  shouldDrop a _ := (decide (a = 1), ())
  compSize _ _ := 1
  compress _ v _ := (v, ())
  makeNoise _ _ _ _ := (none, ())
  add a _ := a
  costSize _ := 1

/-- nothing is lost -/
def ideal (V : Type) : World Nat V Unit where
  isActive _ _ _ := (true, ())
  shouldDrop _ _ := (false, ())
  compSize _ _ := 1
  compress _ v _ := (v, ())
  makeNoise _ _ _ _ := (none, ())
  add a _ := a
  costSize _ := 1

theorem lossy1_exact (V : Type) (a : Nat) : Exact (lossy1 V) a := ⟨fun _ _ => rfl, fun _ _ _ => rfl⟩
theorem ideal_exact (V : Type) (a : Nat) : Exact (ideal V) a := ⟨fun _ _ => rfl, fun _ _ _ => rfl⟩
theorem ideal_lossless (V : Type) (a : Nat) : Lossless (ideal V) a := fun _ => rfl
theorem lossy1_lossless (V : Type) (a : Nat) (h : a ≠ 1) : Lossless (lossy1 V) a := fun _ => by simp [lossy1, h]
theorem lossy1_dropped (V : Type) : AlwaysDropped (lossy1 V) 1 := fun _ => by simp [lossy1]

/-- constant gradients: client `c` has gradient `c` -/
def constGrad : Grad Nat Unit ℝ := fun c _ ω => ((c : ℝ), ω)

/-- SCAFFOLD on two clients, client 1's uploads lost: after one round the server control variate is off by `-1/2`. -/
example (s : FSys Nat (Arr ℝ) Unit (ScafCli ℝ) (ScafSrv ℝ)) :
    ∃ s', (scaffold constGrad 1 1 1 (fun _ => 0) 0).after none 0 (lossy1 (Arr ℝ)) fedNet2 (fun _ => ⟨0, 0, 0⟩) s 1 = .ok s' ∧
      s'.srv.c - (1 / (([1, 2] : List Nat).length : ℝ)) • (([1, 2] : List Nat).map (fun c => (s'.cli c).c_i)).sum ≠ 0 := by
  obtain ⟨s', h1, h2⟩ := C32_lost_upload_breaks (n := fedNet2) (server := 0) (clients := [1, 2]) constGrad (fun c _ => (c : ℝ))
    (fun _ _ _ => rfl) 1 1 one_ne_zero (lossy1 (Arr ℝ)) fedNet2_isFed (fun _ _ => rfl)
    ⟨lossy1_exact _ 0, lossy1_lossless _ 0 (by decide)⟩ (fun _ _ _ _ => rfl) 1 (by simp)
    (fun c _ => ⟨lossy1_exact _ c, lossy1_lossless _ c⟩) (lossy1_dropped _) (fun _ => ⟨0, 0, 0⟩) s
  exact ⟨s', h1, by rw [h2]; norm_num⟩

/-- the lossless run-level theorem applies to a concrete system -/
example (s : FSys Nat (Arr ℝ) Unit (ScafCli ℝ) (ScafSrv ℝ)) (k : Nat) :=
  C32_consistent (n := fedNet2) (server := 0) (clients := [1, 2]) constGrad 1 1 3 (fun _ => 0) (by simp) (ideal (Arr ℝ))
    fedNet2_isFed (fun _ _ => rfl) (fun c _ => ⟨ideal_exact _ c, ideal_lossless _ c⟩) none (fun f e => by cases e)
    (fun _ => ⟨0, 0, 0⟩) s k

/-- FedDyn on two clients, client 1's uploads lost -/
example (s : FSys Nat ℝ Unit (DynCli ℝ) (DynSrv ℝ)) :
    ∃ s', (fedDyn constGrad 1 1 1).after none 0 (lossy1 ℝ) fedNet2 (fun _ => 0) s 1 = .ok s' ∧
      s'.srv.h - (1 / (([1, 2] : List Nat).length : ℝ)) • (([1, 2] : List Nat).map (fun c => (s'.cli c).g)).sum ≠ 0 := by
  obtain ⟨s', h1, h2⟩ := C33_lost_upload_breaks (n := fedNet2) (server := 0) (clients := [1, 2]) constGrad (fun c _ => (c : ℝ))
    (fun _ _ _ => rfl) 1 1 (lossy1 ℝ) fedNet2_isFed (fun _ _ => rfl) (fun a _ => lossy1_exact _ a)
    (lossy1_lossless _ 0 (by decide)) (fun _ _ _ _ => rfl) 1 (by simp)
    (fun c _ => lossy1_lossless _ c) (lossy1_dropped _) (fun _ => 0) s
  exact ⟨s', h1, by rw [h2]; norm_num⟩

end Verif.Props
