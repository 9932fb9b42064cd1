import Verif.Props.FedDrift
import Verif.Props.Selection
import Mathlib.Analysis.SpecialFunctions.Pow.Real
set_option linter.unusedSectionVars false
/-!
# C31 (round level), C34 (adaptive servers), C35 (Fed-LT), C66 (participation accounting)
-/
namespace Verif.Props
open Verif Verif.Fed NetState

section
variable {A V Ω α σ E : Type} [DecidableEq A] [AddCommGroup E] [Module ℝ E]
variable {n : Net A} {server : A} {clients : List A}

/-! ## C31: accepted hyper-parameters for which a round raises -/

/-- With `step_size * penalty = 5/2` (which the constructor accepts) and two proximal local steps per client, every round in
which an upload arrives raises: here all clients are active and channels are ideal. -/
theorem C31_round_refuted (p : NovaParams) (hm : p.useMomentum = false) (hp : p.useProx = true) (hημ : p.η * p.μ = 5 / 2)
    (G : Grad A Ω E) (counts : A → Nat) (w : World A (Arr E) Ω) (hf : IsFed n server clients) (hup : ServerUp w server)
    (hcl : clients ≠ []) (hact : ∀ c ∈ clients, ∀ it ω, (w.isActive c it ω).1 = true)
    (hideal : ∀ a ∈ server :: clients, Exact w a ∧ Lossless w a) (k : Int) (s : FSys A (Arr E) Ω E (NovaSrv E)) :
    iter (fedNova p G (fun _ => 2) counts) none server w n k s = .error .valueError := by
  obtain ⟨srv1, net', cli', nSel', selected, P, bc, ωs, hr, hi⟩ := iter_spec (fedNova p G (fun _ => 2) counts)
    (fun _ _ _ _ => by simp [fedNova]) (fun b srv => by simp [fedNova]) w hf hup none (fun f e => by cases e) k s
  have hselall : selected = clients := hr.all_active rfl hact
  obtain ⟨c, hc⟩ := List.exists_mem_of_ne_nil clients hcl
  have hcP : c ∈ P := by
    by_contra hcP
    obtain ⟨ω, hω⟩ := hr.missed c (by rw [hselall]; exact hc) hcP
    rw [(hideal server (by simp)).2 ω] at hω; cases hω
  obtain ⟨a, ha, ha'⟩ := (hr.uploads c hcP (.normalizer, _) (by simp [fedNova]; rfl)).lossless (hideal c (by simp [hc])).2
  obtain ⟨g, hg, hg'⟩ := (hr.uploads c hcP (.cumGrad, _) (by simp [fedNova]; rfl)).lossless (hideal c (by simp [hc])).2
  have hav := ha.exact (hideal c (by simp [hc])).1
  simp only at ha' hg'
  have htr : novaTriple counts (net'.inbox server) c = some ((counts c : ℝ), a.scalar, g.row0) := by
    simp only [novaTriple, Inbox.get?_byChannel, ha', hg']
  have hneg : a.scalar ≤ 0 := by
    rw [hav]
    simp only [Arr.number]
    rw [C31_coefficient_documented, C31_coefficient_refuted p hm hp hημ]
    norm_num
  have hagg : (fedNova p G (fun _ => 2) counts).aggregate clients (net'.inbox server) P srv1 = .error .valueError := by
    simp only [fedNova]
    have hmem : ((counts c : ℝ), a.scalar, g.row0) ∈ P.filterMap (novaTriple counts (net'.inbox server)) :=
      List.mem_filterMap.2 ⟨c, hcP, htr⟩
    rw [if_neg (List.ne_nil_of_mem hmem), if_pos ⟨_, hmem, hneg⟩]
  rw [hi, hagg]; rfl

/-! ## C34 -/

section opt
variable {ι : Type}

theorem opt_round (G : Grad A Ω (ι → ℝ)) (η ηs β1 ε : ℝ) (K : Nat) (second : ℝ → ℝ → ℝ)
    (w : World A (ι → ℝ) Ω) (hf : IsFed n server clients) (hup : ServerUp w server)
    (sel : Select A Ω) (hsel : SelOK sel) (k : Int) (s : FSys A (ι → ℝ) Ω (ι → ℝ) (OptSrv ι)) :
    ∃ s', iter (fedOpt G η ηs β1 ε K second) sel server w n k s = .ok s' ∧
      ∃ R up, Heard s' server .dflt R up ∧ (R = [] → s'.srv = s.srv) ∧ (R ≠ [] → ∃ d : ι → ℝ,
        d = (1 / (R.length : ℝ)) • (R.map up).sum ∧
        ∀ i, s'.srv.m i = β1 * s.srv.m i + (1 - β1) * d i ∧ s'.srv.v i = second (s.srv.v i) (d i) ∧
          s'.srv.x i = s.srv.x i + ηs * s'.srv.m i / (Real.sqrt (s'.srv.v i) + ε)) := by
  obtain ⟨srv1, net', cli', nSel', selected, P, bc, ωs, hr, hi⟩ := iter_spec (fedOpt G η ηs β1 ε K second)
    (fun _ _ _ _ => by simp [fedOpt]) (fun b srv => by simp [fedOpt, receivedFrom]) w hf hup sel hsel k s
  have hsrv : srv1 = s.srv := hr.prep
  subst hsrv
  set R := P.filter (fun c => ((net'.inbox server).abs .dflt c).isSome) with hR
  have hrec : receivedFrom (net'.inbox server) .dflt P =
      R.map (fun c => (c, ((net'.inbox server).abs .dflt c).getD 0)) :=
    receivedFrom_eq _ _ _ _ (fun c _ v hv => getD_val _ _ _ hv)
  by_cases he : R = []
  · refine ⟨⟨net', s.srv, cli', nSel'⟩, ?_, R, _, heard_of_round hr _ .dflt 0, fun _ => rfl, fun h => absurd he h⟩
    rw [hi]
    simp only [fedOpt, hrec, he]
    rfl
  · set d : ι → ℝ := (1 / (R.length : ℝ)) • (R.map (fun c => ((net'.inbox server).abs .dflt c).getD 0)).sum with hd
    refine ⟨⟨net', ⟨fun i => s.srv.x i + ηs * (β1 * s.srv.m i + (1 - β1) * d i) / (Real.sqrt (second (s.srv.v i) (d i)) + ε),
      fun i => β1 * s.srv.m i + (1 - β1) * d i, fun i => second (s.srv.v i) (d i)⟩, cli', nSel'⟩, ?_, R, _,
      heard_of_round hr _ .dflt 0, fun h => absurd h he, fun _ => ⟨d, hd, fun i => ⟨rfl, rfl, rfl⟩⟩⟩
    rw [hi]
    simp only [fedOpt, hrec, List.map_eq_nil_iff, he, if_false, uniformAverage_eq, List.map_map, Function.comp_def,
      List.length_map]
    rw [← hd]
    rfl

theorem adagradV_nonneg {v : ℝ} (hv : 0 ≤ v) (d : ℝ) : v ≤ adagradV v d := by
  unfold adagradV; nlinarith [mul_self_nonneg d]

theorem adamV_nonneg {β2 v : ℝ} (hb : 0 ≤ β2 ∧ β2 ≤ 1) (hv : 0 ≤ v) (d : ℝ) : 0 ≤ adamV β2 v d := by
  unfold adamV
  have := mul_nonneg hb.1 hv
  have := mul_nonneg (sub_nonneg.2 hb.2) (mul_self_nonneg d)
  linarith

theorem yogiV_nonneg {β2 v : ℝ} (hb : 0 ≤ β2 ∧ β2 ≤ 1) (hv : 0 ≤ v) (d : ℝ) : 0 ≤ yogiV β2 v d := by
  unfold yogiV
  have h1 : 0 ≤ 1 - β2 := sub_nonneg.2 hb.2
  have h2 := mul_self_nonneg d
  rcases lt_trichotomy v (d * d) with h | h | h
  · rw [Real.sign_of_neg (by linarith)]
    have := mul_nonneg h1 h2
    linarith
  · rw [h, sub_self, Real.sign_zero]; simpa using h2
  · rw [Real.sign_of_pos (by linarith)]
    nlinarith [mul_nonneg hb.1 h2]

/-- What every round of a FedOpt algorithm does with a second-moment rule that keeps non-negative values non-negative: in
every run, for every network behaviour, no round raises, the second moment is non-negative after every round, and the
denominator used in a round is at least `ε`. -/
def WellDefined (alg : FedAlg A (ι → ℝ) Ω (ι → ℝ) (OptSrv ι)) (sel : Select A Ω) (server : A) (w : World A (ι → ℝ) Ω)
    (n : Net A) (ε : ℝ) : Prop :=
  ∀ (x0 : A → ι → ℝ) (s : FSys A (ι → ℝ) Ω (ι → ℝ) (OptSrv ι)) (k : Nat),
    ∃ s', alg.after sel server w n x0 s k = .ok s' ∧ (∀ i, 0 ≤ s'.srv.v i) ∧ ∀ i, ε ≤ Real.sqrt (s'.srv.v i) + ε

theorem opt_wellDefined (G : Grad A Ω (ι → ℝ)) (η ηs β1 ε : ℝ) (K : Nat) (second : ℝ → ℝ → ℝ)
    (h : ∀ v d, 0 ≤ v → 0 ≤ second v d)
    (w : World A (ι → ℝ) Ω) (hf : IsFed n server clients) (hup : ServerUp w server)
    (sel : Select A Ω) (hsel : SelOK sel) : WellDefined (fedOpt G η ηs β1 ε K second) sel server w n ε := by
  intro x0 s k
  obtain ⟨s', h1, h2⟩ := after_induction (n := n) (server := server) (fedOpt G η ηs β1 ε K second) sel w x0 s
    (fun _ s' => ∀ i, 0 ≤ s'.srv.v i) (fun i => le_refl (0 : ℝ)) (fun k s1 ih => by
      obtain ⟨s2, h2, R, up, hh, h0, h3⟩ := opt_round G η ηs β1 ε K second w hf hup sel hsel k s1
      refine ⟨s2, h2, fun i => ?_⟩
      by_cases he : R = []
      · rw [h0 he]; exact ih i
      · obtain ⟨d, _, hd⟩ := h3 he
        rw [(hd i).2.1]
        exact h _ _ (ih i)) k
  exact ⟨s', h1, h2, fun i => by linarith [Real.sqrt_nonneg (s'.srv.v i)]⟩

theorem C34_fedadagrad_well_defined (G : Grad A Ω (ι → ℝ)) (η ηs β1 ε : ℝ) (K : Nat)
    (w : World A (ι → ℝ) Ω) (hf : IsFed n server clients) (hup : ServerUp w server)
    (sel : Select A Ω) (hsel : SelOK sel) : WellDefined (fedOpt G η ηs β1 ε K adagradV) sel server w n ε :=
  opt_wellDefined G η ηs β1 ε K _ (fun _ d hv => hv.trans (adagradV_nonneg hv d)) w hf hup sel hsel

theorem C34_fedadam_well_defined (G : Grad A Ω (ι → ℝ)) (η ηs β1 β2 ε : ℝ) (hb : 0 ≤ β2 ∧ β2 ≤ 1) (K : Nat)
    (w : World A (ι → ℝ) Ω) (hf : IsFed n server clients) (hup : ServerUp w server)
    (sel : Select A Ω) (hsel : SelOK sel) : WellDefined (fedOpt G η ηs β1 ε K (adamV β2)) sel server w n ε :=
  opt_wellDefined G η ηs β1 ε K _ (fun _ d hv => adamV_nonneg hb hv d) w hf hup sel hsel

theorem C34_fedyogi_well_defined (G : Grad A Ω (ι → ℝ)) (η ηs β1 β2 ε : ℝ) (hb : 0 ≤ β2 ∧ β2 ≤ 1) (K : Nat)
    (w : World A (ι → ℝ) Ω) (hf : IsFed n server clients) (hup : ServerUp w server)
    (sel : Select A Ω) (hsel : SelOK sel) : WellDefined (fedOpt G η ηs β1 ε K (yogiV β2)) sel server w n ε :=
  opt_wellDefined G η ηs β1 ε K _ (fun _ d hv => yogiV_nonneg hb hv d) w hf hup sel hsel

/-- The documented server update: with `d` the mean of the deltas in the server's inbox, `m ← β₁ m + (1-β₁) d`, the second
moment by its rule and `x ← x + η_s m / (√v + ε)`; nothing changes if no delta arrived. The step is bounded by
`η_s |m| / ε` in every coordinate. -/
theorem C34_update_documented (G : Grad A Ω (ι → ℝ)) (η ηs β1 ε : ℝ) (hε : 0 < ε) (hηs : 0 ≤ ηs) (K : Nat) (second : ℝ → ℝ → ℝ)
    (w : World A (ι → ℝ) Ω) (hf : IsFed n server clients) (hup : ServerUp w server)
    (sel : Select A Ω) (hsel : SelOK sel) (k : Int) (s : FSys A (ι → ℝ) Ω (ι → ℝ) (OptSrv ι)) :
    ∃ s', iter (fedOpt G η ηs β1 ε K second) sel server w n k s = .ok s' ∧
      ∃ R up, Heard s' server .dflt R up ∧ (R = [] → s'.srv = s.srv) ∧ (R ≠ [] → ∃ d : ι → ℝ,
        d = (1 / (R.length : ℝ)) • (R.map up).sum ∧
        ∀ i, s'.srv.m i = β1 * s.srv.m i + (1 - β1) * d i ∧ s'.srv.v i = second (s.srv.v i) (d i) ∧
          s'.srv.x i = s.srv.x i + ηs * s'.srv.m i / (Real.sqrt (s'.srv.v i) + ε) ∧
          |s'.srv.x i - s.srv.x i| ≤ ηs * |s'.srv.m i| / ε) := by
  obtain ⟨s2, h2, R, up, hh, h0, h3⟩ := opt_round G η ηs β1 ε K second w hf hup sel hsel k s
  refine ⟨s2, h2, R, up, hh, h0, fun he => ?_⟩
  obtain ⟨d, hd, h4⟩ := h3 he
  refine ⟨d, hd, fun i => ⟨(h4 i).1, (h4 i).2.1, (h4 i).2.2, ?_⟩⟩
  have hden : ε ≤ Real.sqrt (s2.srv.v i) + ε := by linarith [Real.sqrt_nonneg (s2.srv.v i)]
  rw [(h4 i).2.2, add_sub_cancel_left, abs_div, abs_mul, abs_of_nonneg hηs, abs_of_pos (lt_of_lt_of_le hε hden)]
  exact div_le_div_of_nonneg_left (mul_nonneg hηs (abs_nonneg _)) hε hden

/-- FedAdagrad's second moment never decreases. -/
theorem C34_fedadagrad_monotone (G : Grad A Ω (ι → ℝ)) (η ηs β1 ε : ℝ) (K : Nat)
    (w : World A (ι → ℝ) Ω) (hf : IsFed n server clients) (hup : ServerUp w server)
    (sel : Select A Ω) (hsel : SelOK sel) (k : Int) (s : FSys A (ι → ℝ) Ω (ι → ℝ) (OptSrv ι)) :
    ∃ s', iter (fedOpt G η ηs β1 ε K adagradV) sel server w n k s = .ok s' ∧ ∀ i, s.srv.v i ≤ s'.srv.v i := by
  obtain ⟨s2, h2, R, up, hh, h0, h3⟩ := opt_round G η ηs β1 ε K adagradV w hf hup sel hsel k s
  refine ⟨s2, h2, fun i => ?_⟩
  by_cases he : R = []
  · rw [h0 he]
  · obtain ⟨d, _, hd⟩ := h3 he
    rw [(hd i).2.1]
    unfold adagradV; nlinarith [mul_self_nonneg (d i)]

/-- FedYogi changes the second moment by at most `(1-β₂) d²` (its point over Adam). -/
theorem C34_yogi_controlled (β2 v d : ℝ) (hb : 0 ≤ β2 ∧ β2 ≤ 1) : |yogiV β2 v d - v| ≤ (1 - β2) * d ^ 2 := by
  unfold yogiV
  have h1 : 0 ≤ (1 - β2) * (d * d) := mul_nonneg (sub_nonneg.2 hb.2) (mul_self_nonneg d)
  rcases lt_trichotomy v (d * d) with h | h | h
  · rw [Real.sign_of_neg (by linarith), abs_le]; constructor <;> nlinarith
  · rw [h, sub_self, Real.sign_zero, mul_zero, sub_zero, sub_self, abs_zero]; nlinarith
  · rw [Real.sign_of_pos (by linarith), abs_le]; constructor <;> nlinarith

end opt

/-! ## C35 -/

theorem zBy_fold (b : Inbox FChan A E) (P : List A) (hP : P.Nodup) (z : A → E) (c : A) :
    (P.foldl (storeZ b) z) c = if c ∈ P then ((b.abs .dflt c).getD (z c)) else z c := by
  induction P generalizing z with
  | nil => simp
  | cons a t ih =>
    rw [List.foldl_cons, ih (List.nodup_cons.1 hP).2, storeZ, Inbox.get?_byChannel]
    have hat := (List.nodup_cons.1 hP).1
    by_cases hca : c = a
    · subst hca
      simp only [hat, if_false, List.mem_cons, true_or, if_true]
      cases b.abs .dflt c <;> simp [upd]
    · cases b.abs .dflt a <;> simp [hca, upd]

theorem lt_round (solve : A → E → E → Ω → E × Ω) (prox : E → ℝ → Ω → E × Ω) (ρ : ℝ) (z0 : A → E)
    (w : World A E Ω) (hf : IsFed n server clients) (hup : ServerUp w server)
    (sel : Select A Ω) (hsel : SelOK sel) (k : Int) (s : FSys A E Ω (LtCli E) (LtSrv A E)) :
    ∃ s', ∃ selected P : List A, ∃ bc, ∃ ωs : A → Ω, iter (fedLT solve prox ρ clients z0) sel server w n k s = .ok s' ∧
      Round (fedLT solve prox ρ clients z0) sel w server clients { s with net := s.net.step n k }
        ⟨(prox ((1 / (clients.length : ℝ)) • (clients.map s.srv.zBy).sum) (ρ / clients.length) s.net.ω).1, s.srv.zBy⟩
        s'.net s'.cli s'.nSelected selected P bc ωs ∧
      s'.srv.x = (prox ((1 / (clients.length : ℝ)) • (clients.map s.srv.zBy).sum) (ρ / clients.length) s.net.ω).1 ∧
      (∀ c, s'.srv.zBy c = ((s'.net.inbox server).abs .dflt c).getD (s.srv.zBy c)) := by
  obtain ⟨srv1, net', cli', nSel', selected, P, bc, ωs, hr, hi⟩ := iter_spec (fedLT solve prox ρ clients z0)
    (fun _ _ _ _ => by simp [fedLT]) (fun b srv => by simp [fedLT]) w hf hup sel hsel k s
  have hsrv : srv1 = ⟨(prox ((1 / (clients.length : ℝ)) • (clients.map s.srv.zBy).sum) (ρ / clients.length) s.net.ω).1,
      s.srv.zBy⟩ := by
    rw [hr.prep]
    simp only [fedLT, NetState.step]
    rw [foldl_add_eq (fun z => z), zero_add, List.map_id']
  subst hsrv
  refine ⟨_, selected, P, bc, ωs, hi, hr, rfl, ?_⟩
  intro c
  show (P.foldl _ s.srv.zBy) c = _
  rw [zBy_fold _ _ hr.nodup]
  by_cases hc : c ∈ P
  · rw [if_pos hc]
  · rw [if_neg hc]
    cases h : (net'.inbox server).abs .dflt c with
    | none => simp
    | some v => exact absurd (hr.only .dflt c (by simp [h])).1 hc

/-- One Fed-LT iteration, for every network behaviour: it never raises; the server model (which is what is broadcast) is the
proximal, with penalty `ρ/N`, of the mean of the stored values; a stored value is replaced by the upload if one arrived and
kept otherwise; a client that did not receive the broadcast keeps `x` and `z`; one that did runs the local solver at
`v = 2y - z` and moves `z` by `2(x - y)`. -/
theorem C35_round (solve : A → E → E → Ω → E × Ω) (prox : E → ℝ → Ω → E × Ω) (ρ : ℝ) (z0 : A → E)
    (w : World A E Ω) (hf : IsFed n server clients) (hup : ServerUp w server)
    (sel : Select A Ω) (hsel : SelOK sel) (k : Int) (s : FSys A E Ω (LtCli E) (LtSrv A E)) :
    ∃ s', iter (fedLT solve prox ρ clients z0) sel server w n k s = .ok s' ∧
      (∃ ω, s'.srv.x = (prox ((1 / (clients.length : ℝ)) • (clients.map s.srv.zBy).sum) (ρ / clients.length) ω).1) ∧
      (∀ c v, (s'.net.inbox server).get c .dflt = .ok v → s'.srv.zBy c = v) ∧
      (∀ c, ¬ Uploaded s' server c .dflt → s'.srv.zBy c = s.srv.zBy c) ∧
      (∀ c ∈ clients, (∀ v, ¬ GotBroadcast s' server c v) → s'.cli c = s.cli c) ∧
      (∀ c ∈ clients, ∀ y, GotBroadcast s' server c y → ∃ ω, (s'.cli c).x = (solve c (s.cli c).x ((2 : ℝ) • y - (s.cli c).z) ω).1 ∧
        (s'.cli c).z = (s.cli c).z + (2 : ℝ) • ((s'.cli c).x - y)) ∧
      (∀ c ∈ clients, Exact w server → ∀ y, GotBroadcast s' server c y → y = s'.srv.x) ∧
      (∀ c ∈ clients, Exact w c → Uploaded s' server c .dflt → s'.srv.zBy c = (s'.cli c).z) := by
  obtain ⟨s', selected, P, bc, ωs, h1, hr, hx, hz⟩ := lt_round solve prox ρ z0 w hf hup sel hsel k s
  have hgot : ∀ c ∈ clients, ∀ y, GotBroadcast s' server c y ↔ c ∈ P ∧ y = bc c := by
    intro c hc y
    unfold GotBroadcast
    rw [get_ok_iff, hr.inboxes c hc]
    by_cases hcP : c ∈ P
    · simp [hcP, eq_comm]
    · simp [hcP]
  refine ⟨s', h1, ⟨_, hx⟩, ?_, ?_, ?_, ?_, ?_, ?_⟩
  · intro c v hv
    rw [get_ok_iff] at hv
    rw [hz, hv]; rfl
  · intro c hc
    rw [uploaded_iff] at hc
    rw [hz]
    cases h : (s'.net.inbox server).abs .dflt c with
    | none => rfl
    | some v => rw [h] at hc; exact absurd rfl hc
  · intro c hc h
    rw [hr.cli c, if_neg]
    intro hcP
    exact h (bc c) ((hgot c hc _).2 ⟨hcP, rfl⟩)
  · intro c hc y hy
    obtain ⟨hcP, rfl⟩ := (hgot c hc y).1 hy
    refine ⟨ωs c, ?_⟩
    rw [hr.cli c, if_pos hcP]
    exact ⟨rfl, rfl⟩
  · intro c hc he y hy
    obtain ⟨hcP, rfl⟩ := (hgot c hc y).1 hy
    rw [(hr.heard c hcP).exact he, hx]; rfl
  · intro c hc he hu
    rw [uploaded_iff] at hu
    obtain ⟨v, hv⟩ := Option.isSome_iff_exists.1 hu
    have hcP := (hr.only .dflt c (by simp [hv])).1
    rw [hz, hv]
    rcases hr.uploads c hcP (.dflt, _) (by simp [fedLT]; rfl) with ⟨v', ha, hn, _⟩ | ⟨hn, _⟩
    · simp only at hn; rw [hv] at hn; cases hn
      rw [Option.getD_some, ha.exact he, hr.cli c, if_pos hcP]
      rfl
    · simp only at hn; rw [hv] at hn; cases hn

/-- After any number of iterations the stored value of a client is the last upload that arrived from it - the client's `z` of
that iteration - or its initial `z` if none ever did. -/
theorem C35_last_upload (solve : A → E → E → Ω → E × Ω) (prox : E → ℝ → Ω → E × Ω) (ρ : ℝ) (z0 : A → E)
    (w : World A E Ω) (hf : IsFed n server clients) (hup : ServerUp w server) (hex : ∀ c ∈ clients, Exact w c)
    (sel : Select A Ω) (hsel : SelOK sel) (x0 : A → E) (s : FSys A E Ω (LtCli E) (LtSrv A E)) (k : Nat) :
    ∃ st : Nat → FSys A E Ω (LtCli E) (LtSrv A E),
      (∀ j ≤ k, (fedLT solve prox ρ clients z0).after sel server w n x0 s j = .ok (st j)) ∧
      ∀ c ∈ clients,
        ((st k).srv.zBy c = z0 c ∧ ∀ j, 0 < j → j ≤ k → ¬ Uploaded (st j) server c .dflt) ∨
        ∃ j, 0 < j ∧ j ≤ k ∧ Uploaded (st j) server c .dflt ∧ (st k).srv.zBy c = ((st j).cli c).z ∧
          ∀ i, j < i → i ≤ k → ¬ Uploaded (st i) server c .dflt := by
  have hrun : ∀ j, ∃ s', (fedLT solve prox ρ clients z0).after sel server w n x0 s j = .ok s' := by
    intro j
    obtain ⟨s', h, _⟩ := after_induction (n := n) (server := server) (fedLT solve prox ρ clients z0) sel w x0 s
      (fun _ _ => True) trivial (fun k s1 _ => by
        obtain ⟨s2, h2, _⟩ := C35_round solve prox ρ z0 w hf hup sel hsel k s1
        exact ⟨s2, h2, trivial⟩) j
    exact ⟨s', h⟩
  choose st hst using hrun
  have hstep : ∀ j : Nat, iter (fedLT solve prox ρ clients z0) sel server w n j (st j) = .ok (st (j + 1)) := by
    intro j
    have := hst (j + 1)
    rw [after_succ, hst j] at this
    exact this
  refine ⟨st, fun j _ => hst j, fun c hc => ?_⟩
  induction k with
  | zero =>
    left
    have h0 := hst 0
    rw [after_zero] at h0
    refine ⟨?_, fun j h1 h2 => by omega⟩
    have h0 : (fedLT solve prox ρ clients z0).initialize_ n server x0 s = st 0 := Except.ok.inj h0
    rw [← h0]
    rfl
  | succ k ih =>
    obtain ⟨s2, h2, _, hup', hkeep, _, _, _, hcur⟩ := C35_round solve prox ρ z0 w hf hup sel hsel k (st k)
    rw [hstep k] at h2
    cases h2
    by_cases hu : Uploaded (st (k + 1)) server c .dflt
    · right
      exact ⟨k + 1, by omega, le_refl _, hu, hcur c hc (hex c hc) hu, fun i h1 h2 => by omega⟩
    · have hz := hkeep c hu
      rcases ih with ⟨e, hno⟩ | ⟨j, hj0, hjk, hj, e, hno⟩
      · left
        refine ⟨hz.trans e, fun j h1 h2 => ?_⟩
        rcases Nat.lt_or_ge k j with h | h
        · have : j = k + 1 := by omega
          subst this; exact hu
        · exact hno j h1 h
      · right
        refine ⟨j, hj0, by omega, hj, hz.trans e, fun i h1 h2 => ?_⟩
        rcases Nat.lt_or_ge k i with h | h
        · have : i = k + 1 := by omega
          subst this; exact hu
        · exact hno i h1 h

/-- If no upload is lost or distorted, the server's stored value of every client is the client's current `z` after every
number of rounds, whatever the participation. -/
theorem C35_lossless (solve : A → E → E → Ω → E × Ω) (prox : E → ℝ → Ω → E × Ω) (ρ : ℝ) (z0 : A → E)
    (w : World A E Ω) (hf : IsFed n server clients) (hup : ServerUp w server)
    (hex : ∀ c ∈ clients, Exact w c ∧ Lossless w c)
    (sel : Select A Ω) (hsel : SelOK sel) (x0 : A → E) (s : FSys A E Ω (LtCli E) (LtSrv A E)) (k : Nat) :
    ∃ s', (fedLT solve prox ρ clients z0).after sel server w n x0 s k = .ok s' ∧
      ∀ c ∈ clients, s'.srv.zBy c = (s'.cli c).z := by
  apply after_induction (n := n) (server := server) (fedLT solve prox ρ clients z0) sel w x0 s
    (fun _ s' => ∀ c ∈ clients, s'.srv.zBy c = (s'.cli c).z) (fun _ _ => rfl)
  intro k s1 ih
  obtain ⟨s', selected, P, bc, ωs, h1, hr, hx, hz⟩ := lt_round solve prox ρ z0 w hf hup sel hsel k s1
  refine ⟨s', h1, fun c hc => ?_⟩
  rw [hz c]
  by_cases hcP : c ∈ P
  · obtain ⟨v, ha, hv⟩ := (hr.uploads c hcP (.dflt, _) (by simp [fedLT]; rfl)).lossless (hex c hc).2
    simp only at hv
    rw [hv, Option.getD_some, ha.exact (hex c hc).1, hr.cli c, if_pos hcP]
    rfl
  · rw [hr.cli c, if_neg hcP]
    cases h : (s'.net.inbox server).abs .dflt c with
    | none => exact ih c hc
    | some v => exact absurd (hr.only .dflt c (by simp [h])).1 hcP

/-! ## C66 -/

/-- Participation accounting, for every federated algorithm with the common round structure that completes the round: the
selection counter of a client grows by at most one per iteration, by exactly one for the selected ones (distinct clients of
the network), and a client can only have received the broadcast if it was selected; with no selection scheme and all clients
active everybody is selected. -/
theorem C66_selection_counters (alg : FedAlg A V Ω α σ) (hch : ∀ c m v ω, (((alg.train c m v ω).1.2).map Prod.fst).Nodup)
    (hagg : ∀ b srv, alg.aggregate clients b [] srv = .ok srv)
    (w : World A V Ω) (hf : IsFed n server clients) (hup : ServerUp w server) (sel : Select A Ω) (hsel : SelOK sel)
    (k : Int) (s s' : FSys A V Ω α σ) (hok : iter alg sel server w n k s = .ok s') :
    ∃ selected : List A, selected.Nodup ∧ (∀ c ∈ selected, c ∈ clients) ∧
      (∀ c, s'.nSelected c = s.nSelected c + if c ∈ selected then 1 else 0) ∧
      (∀ c ∈ clients, ∀ v, GotBroadcast s' server c v → c ∈ selected) ∧
      (∀ c ∈ clients, c ∉ selected → s'.cli c = s.cli c) ∧
      (∀ c ch, Uploaded s' server c ch → c ∈ selected) ∧
      (sel = none → (∀ c ∈ clients, ∀ it ω, (w.isActive c it ω).1 = true) → selected = clients) := by
  obtain ⟨srv1, net', cli', nSel', selected, P, bc, ωs, hr, hi⟩ := iter_spec alg hch hagg w hf hup sel hsel k s
  rw [hi] at hok
  cases ha : alg.aggregate clients (net'.inbox server) P srv1 with
  | error e => rw [ha] at hok; cases hok
  | ok srv =>
    rw [ha] at hok
    simp only [Except.bind] at hok
    cases hok
    refine ⟨selected, hr.sel_nodup, hr.sel_client, hr.count, ?_, ?_, ?_, hr.all_active⟩
    · intro c hc v hv
      unfold GotBroadcast at hv
      rw [get_ok_iff, hr.inboxes c hc] at hv
      by_cases hcP : c ∈ P
      · exact hr.sub c hcP
      · rw [if_neg hcP] at hv; cases hv
    · intro c _ hcs
      show cli' c = _
      rw [hr.cli c, if_neg (fun h => hcs (hr.sub c h))]
    · intro c ch hu
      rw [uploaded_iff] at hu
      exact hr.sub c (hr.only ch c (by intro e; simp [e] at hu)).1

/-- Over a run of FedAvg, no client is selected more often than there are iterations, and exactly that often when no
selection scheme is configured and all clients are always active. -/
theorem C66_fedavg_counts (G : Grad A Ω E) (η : ℝ) (K : Nat) (w : World A E Ω) (hf : IsFed n server clients)
    (hup : ServerUp w server) (sel : Select A Ω) (hsel : SelOK sel) (x0 : A → E) (s : FSys A E Ω E E) (k : Nat) :
    ∃ s', (fedAvg G η K).after sel server w n x0 s k = .ok s' ∧ (∀ c ∈ clients, s'.nSelected c ≤ k) ∧
      (sel = none → (∀ c ∈ clients, ∀ it ω, (w.isActive c it ω).1 = true) → ∀ c ∈ clients, s'.nSelected c = k) := by
  apply after_induction (n := n) (server := server) (fedAvg G η K) sel w x0 s (fun k s' => (∀ c ∈ clients, s'.nSelected c ≤ k) ∧
      (sel = none → (∀ c ∈ clients, ∀ it ω, (w.isActive c it ω).1 = true) → ∀ c ∈ clients, s'.nSelected c = k))
  · have h0 : ∀ c ∈ clients, ((fedAvg G η K).initialize_ n server x0 s).nSelected c = 0 := by
      intro c hc
      have : c ∈ n.nodes := by rw [hf.nodes]; exact List.mem_cons_of_mem _ hc
      simp [FedAlg.initialize_, this]
    exact ⟨fun c hc => by rw [h0 c hc], fun _ _ c hc => h0 c hc⟩
  · intro k s1 ⟨i1, i2⟩
    obtain ⟨s2, h2, _⟩ := C29_fedavg_mean_of_uploads G η K w hf hup sel hsel k s1
    obtain ⟨selected, _, _, hcnt, _, _, _, hall⟩ := C66_selection_counters (fedAvg G η K) (fun _ _ _ _ => by simp [fedAvg])
      (fun b srv => by simp [fedAvg, aggregateMean, receivedFrom]) w hf hup sel hsel k s1 s2 h2
    refine ⟨s2, h2, fun c hc => ?_, fun h0 h1 c hc => ?_⟩
    · rw [hcnt c]; have := i1 c hc; split <;> omega
    · rw [hcnt c, i2 h0 h1 c hc, hall h0 h1, if_pos hc]

/-- UniformSelection, with any sampler honouring its contract, is an admissible selection scheme. -/
theorem C66_uniform_selection_ok (sz : Selection.Size) (hs : Selection.validate sz = .ok ()) (pick : Ω → Nat → Nat → List Nat)
    (next : Ω → Ω) (hp : ∀ ω, SampleOK (pick ω)) :
    SelOK (some (fun l (_ : Int) ω => .ok (Selection.uniform sz (pick ω) l, next ω)) : Select A Ω) := by
  intro f hf l k ω hl
  cases hf
  refine ⟨_, _, rfl, ?_⟩
  obtain ⟨h1, h2⟩ := C16_uniform sz hs (pick ω) (hp ω) l hl
  by_cases he : l = []
  · rw [h1 he]; simp
  · obtain ⟨m, _, _, hv⟩ := h2 he
    exact ⟨hv.distinct, hv.subset⟩

end

/-! ### concrete instances -/

/-- FedNova: accepted hyper-parameters, ideal network, the round raises -/
example (s : FSys Nat (Arr ℝ) Unit ℝ (NovaSrv ℝ)) :
    (⟨1 / 2, false, 0, true, 5, false, 0⟩ : NovaParams).Accepted ∧
    iter (fedNova ⟨1 / 2, false, 0, true, 5, false, 0⟩ constGrad (fun _ => 2) (fun _ => 10)) none 0 (ideal (Arr ℝ)) fedNet2 0 s =
      .error .valueError :=
  ⟨by norm_num [NovaParams.Accepted], C31_round_refuted _ rfl rfl (by norm_num) constGrad (fun _ => 10) (ideal (Arr ℝ))
    fedNet2_isFed (fun _ _ => rfl) (by simp) (fun _ _ _ _ => rfl)
    (fun a _ => ⟨ideal_exact _ a, ideal_lossless _ a⟩) 0 s⟩

/-- FedYogi on the lossy network -/
example (s : FSys Nat (Fin 3 → ℝ) Unit (Fin 3 → ℝ) (OptSrv (Fin 3))) (k : Nat) :=
  C34_fedyogi_well_defined (n := fedNet2) (server := 0) (clients := [1, 2]) (A := Nat) (Ω := Unit) (ι := Fin 3)
    (fun c x ω => (fun i => x i - c, ω)) 1 1 (9 / 10) (99 / 100) (1 / 1000) ⟨by norm_num, by norm_num⟩ 2
    (lossy1 (Fin 3 → ℝ)) fedNet2_isFed (fun _ _ => rfl) none (fun f e => by cases e) (fun _ _ => 0) s k

/-- Fed-LT on the lossy network: client 1's uploads never arrive -/
example (s : FSys Nat ℝ Unit (LtCli ℝ) (LtSrv Nat ℝ)) (k : Nat) :=
  C35_last_upload (n := fedNet2) (server := 0) (clients := [1, 2]) (ltGd constGrad 1 1 2) (fun x _ ω => (x, ω)) 1 (fun _ => 0)
    (lossy1 ℝ) fedNet2_isFed (fun _ _ => rfl) (fun c _ => lossy1_exact _ c) none (fun f e => by cases e) (fun _ => 0) s k

end Verif.Props
