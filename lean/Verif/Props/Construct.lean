import Verif.Model.Construct
import Mathlib.Data.List.Nodup
/-! # C10: agent indexing on network construction -/
set_option linter.unusedSectionVars false
namespace Verif.Props
open Verif Verif.Construct
variable {A Sig : Type} [DecidableEq A] [DecidableEq Sig]

theorem assignFrom_notin (reg : A → Int) (i : Nat) (l : List A) (a : A) (h : a ∉ l) : assignFrom reg i l a = reg a := by
  induction l generalizing reg i with
  | nil => rfl
  | cons b t ih =>
    simp only [List.mem_cons, not_or] at h
    simp only [assignFrom]
    rw [ih _ _ h.2]
    simp [upd, h.1]

theorem assignFrom_get (reg : A → Int) (i : Nat) (l : List A) (hn : l.Nodup) (k : Nat) (a : A) (h : l[k]? = some a) :
    assignFrom reg i l a = ((i + k : Nat) : Int) := by
  induction l generalizing reg i k with
  | nil => simp at h
  | cons b t ih =>
    rw [List.nodup_cons] at hn
    cases k with
    | zero =>
      simp at h; subst h
      simp only [assignFrom]
      rw [assignFrom_notin _ _ _ _ hn.1]
      simp [upd]
    | succ k =>
      simp only [List.getElem?_cons_succ] at h
      simp only [assignFrom]
      rw [ih _ _ hn.2 k h]
      congr 1; omega

/-- registry effect of any constructor call: nothing, or the called agents all get an index ≥ 0 and nothing else changes;
success implies the second, and that the agents were all unassigned before -/
theorem call_cases (reg : A → Int) (c : Call A Sig) :
    let agents := match c with | .p2p _ l _ => l | .fed l s _ _ => s :: l
    (((call reg c).1 = reg ∧ ∃ e, (call reg c).2 = .error e) ∨
     ((call reg c).1 = assignFrom reg 0 agents ∧ agents.Nodup ∧ (∀ a ∈ agents, reg a = -1))) ∧
    (∀ nodes, (call reg c).2 = .ok nodes → nodes = agents ∧ (call reg c).1 = assignFrom reg 0 agents ∧ agents.Nodup ∧
      (∀ a ∈ agents, reg a = -1)) := by
  have ni : ∀ (l : List A) (x : Args A Sig), l.Nodup → (∀ a ∈ l, reg a = -1) →
      (((networkInit reg l x).1 = reg ∧ ∃ e, (networkInit reg l x).2 = .error e) ∨
        ((networkInit reg l x).1 = assignFrom reg 0 l ∧ l.Nodup ∧ (∀ a ∈ l, reg a = -1))) ∧
      (∀ nodes, (networkInit reg l x).2 = .ok nodes → nodes = l ∧ (networkInit reg l x).1 = assignFrom reg 0 l ∧ l.Nodup ∧
        (∀ a ∈ l, reg a = -1)) := by
    intro l x h1 h2
    unfold networkInit
    split
    · simp
    split
    · simp
    split
    · simp
    split
    · simp
    dsimp only
    split
    · exact ⟨Or.inr ⟨rfl, h1, h2⟩, by intro nodes h; cases h; exact ⟨rfl, rfl, h1, h2⟩⟩
    · exact ⟨Or.inr ⟨rfl, h1, h2⟩, by intro nodes h; cases h⟩
  have vi : ∀ l : List A, validIds reg l = true → l.Nodup ∧ ∀ a ∈ l, reg a = -1 := by
    intro l h
    unfold validIds at h
    rw [Bool.and_eq_true] at h
    refine ⟨of_decide_eq_true h.1, fun a ha => ?_⟩
    simpa using List.all_eq_true.1 h.2 a ha
  cases c with
  | p2p k l x =>
    simp only [call, p2p]
    split
    · simp
    split
    · simp
    · rename_i hv
      have := vi l (by simpa using hv)
      exact ni l x this.1 this.2
  | fed l s b x =>
    simp only [call, fed]
    split
    · simp
    split
    · simp
    split
    · simp
    · rename_i hv
      have := vi (s :: l) (by simpa using hv)
      exact ni (s :: l) _ this.1 this.2

/-- A successful construction numbers its agents 0..n-1 in graph order, bijectively, and no other agent is touched. -/
theorem C10_indices (reg : A → Int) (c : Call A Sig) (nodes : List A) (h : (call reg c).2 = .ok nodes) :
    nodes.Nodup ∧ (∀ (k : Nat) a, nodes[k]? = some a → (call reg c).1 a = (k : Int)) ∧
    (∀ a, a ∉ nodes → (call reg c).1 a = reg a) := by
  obtain ⟨h1, h2, h3, _⟩ := (call_cases reg c).2 nodes h
  rw [h1, h2]
  refine ⟨h3, fun k a hk => ?_, fun a ha => assignFrom_notin reg 0 _ a ha⟩
  rw [assignFrom_get reg 0 _ h3 k a hk]; simp

/-- ... in particular two agents of the network never share an index, and every index below n is used. -/
theorem C10_indices_bijective (reg : A → Int) (c : Call A Sig) (nodes : List A) (h : (call reg c).2 = .ok nodes) :
    (∀ a ∈ nodes, ∀ b ∈ nodes, (call reg c).1 a = (call reg c).1 b → a = b) ∧
    (∀ k : Nat, k < nodes.length → ∃ a ∈ nodes, (call reg c).1 a = (k : Int)) := by
  obtain ⟨_, h2, _⟩ := C10_indices reg c nodes h
  constructor
  · intro a ha b hb e
    obtain ⟨i, hi⟩ := List.getElem?_of_mem ha
    obtain ⟨j, hj⟩ := List.getElem?_of_mem hb
    rw [h2 i a hi, h2 j b hj] at e
    have : i = j := by exact_mod_cast e
    subst this; rw [hi] at hj; exact Option.some.inj hj
  · intro k hk
    exact ⟨nodes[k], List.getElem_mem hk, h2 k _ (List.getElem?_eq_getElem hk)⟩

theorem assigned_mono (reg : A → Int) (c : Call A Sig) (a : A) (h : reg a ≠ -1) : (call reg c).1 a ≠ -1 := by
  rcases (call_cases reg c).1 with ⟨h1, _⟩ | ⟨h1, h2, h3⟩
  · rw [h1]; exact h
  · rw [h1]
    by_cases ha : a ∈ (match c with | .p2p _ l _ => l | .fed l s _ _ => s :: l)
    · exact absurd (h3 a ha) h
    · rw [assignFrom_notin _ _ _ _ ha]; exact h

theorem not_used_of_assigned (cs : List (Call A Sig)) (reg : A → Int) (a : A) (h : reg a ≠ -1) :
    ∀ nodes, (.ok nodes : Py (List A)) ∈ calls reg cs → a ∉ nodes := by
  induction cs generalizing reg with
  | nil => intro nodes hm; simp [calls] at hm
  | cons c t ih =>
    intro nodes hm
    simp only [calls, List.mem_cons] at hm
    rcases hm with hm | hm
    · obtain ⟨_, _, _, h4⟩ := (call_cases reg c).2 nodes hm.symm
      obtain ⟨h1, _⟩ := (call_cases reg c).2 nodes hm.symm
      intro ha
      rw [h1] at ha
      exact h (h4 a ha)
    · exact ih _ (assigned_mono reg c a h) nodes hm

/-- Two networks built in one program never share an agent, whatever the other constructor calls (failed or not). -/
theorem C10_networks_disjoint (reg : A → Int) (cs : List (Call A Sig)) :
    (calls reg cs).Pairwise (fun r1 r2 => ∀ n1 n2, r1 = .ok n1 → r2 = .ok n2 → ∀ a ∈ n1, a ∉ n2) := by
  induction cs generalizing reg with
  | nil => exact List.Pairwise.nil
  | cons c t ih =>
    simp only [calls, List.pairwise_cons]
    refine ⟨?_, ih _⟩
    intro r2 hr2 n1 n2 h1 h2 a ha
    subst h2
    refine not_used_of_assigned t _ a ?_ n2 hr2
    obtain ⟨k, hk⟩ := List.getElem?_of_mem ha
    rw [(C10_indices reg c n1 h1).2.1 k a hk]
    omega

/-- Poisoning: if every check up to the schemes passes but a scheme argument is invalid, the construction raises
ValueError, and afterwards any construction that uses any of these agents raises too - even with corrected schemes. -/
theorem C10_failed_construction_poisons (reg : A → Int) (agents : List A) (x : Args A Sig)
    (hv : validIds reg agents = true) (hg : x.multigraph = false ∧ x.directed = false ∧ x.connected = true)
    (hc : compatible x.sig agents = true)
    (hbad : (schemesOk agents x.noise && schemesOk agents x.compression && schemesOk agents x.drop) = false)
    (a : A) (ha : a ∈ agents) (c : Call A Sig)
    (hca : a ∈ (match c with | .p2p _ l _ => l | .fed l s _ _ => s :: l)) :
    (p2p reg agents.length agents x).2 = .error .valueError ∧
    ∃ e, (call (p2p reg agents.length agents x).1 c).2 = .error e := by
  have hp : p2p reg agents.length agents x = (assignFrom reg 0 agents, .error .valueError) := by
    simp [p2p, hv, networkInit, hg.1, hg.2.1, hg.2.2, hc, hbad]
  refine ⟨by rw [hp], ?_⟩
  rw [hp]
  have hnod : agents.Nodup := by
    unfold validIds at hv; rw [Bool.and_eq_true] at hv; exact of_decide_eq_true hv.1
  obtain ⟨k, hk⟩ := List.getElem?_of_mem ha
  have hne : assignFrom reg 0 agents a ≠ -1 := by rw [assignFrom_get reg 0 _ hnod k a hk]; omega
  cases h : (call (assignFrom reg 0 agents) c).2 with
  | error e => exact ⟨e, rfl⟩
  | ok nodes =>
    obtain ⟨_, _, _, h4⟩ := (call_cases (assignFrom reg 0 agents) c).2 nodes h
    exact absurd (h4 a hca) hne

/-- arguments of a plain construction -/
def plain (d : SchemeArg Nat) : Args Nat Nat := ⟨false, false, true, fun _ => 0, .none, .none, d⟩

/-- concrete instance: drop schemes given for agent 1 only; correcting the dict does not help -/
example : (p2p (fun _ => -1) 2 [1, 2] (plain (.dict [1]))).2 = .error .valueError ∧
    (p2p (p2p (fun _ => -1) 2 [1, 2] (plain (.dict [1]))).1 2 [1, 2] (plain (.dict [1, 2]))).2 = .error .valueError ∧
    (p2p (fun _ => -1) 2 [1, 2] (plain (.dict [1, 2]))).2 = .ok [1, 2] := by
  refine ⟨by rfl, by rfl, by rfl⟩

/-- what a per-agent scheme argument must provide: nothing, one scheme, or a dictionary with an entry for every agent -/
def Covers (agents : List A) : SchemeArg A → Prop
  | .none => True
  | .single => True
  | .dict keys => ∀ a ∈ agents, a ∈ keys
  | .other => False

theorem schemesOk_iff (l : List A) (s : SchemeArg A) : schemesOk l s = true ↔ Covers l s := by
  cases s <;> simp [schemesOk, Covers]

theorem compatible_iff (sig : A → Sig) (l : List A) : compatible sig l = true ↔ ∀ a ∈ l, ∀ b ∈ l, sig a = sig b := by
  cases l with
  | nil => simp [compatible]
  | cons a t =>
    simp only [compatible, List.all_eq_true, decide_eq_true_eq]
    constructor
    · intro h
      have h' : ∀ b ∈ a :: t, sig b = sig a := by
        intro b hb
        rcases List.mem_cons.1 hb with e | e
        · rw [e]
        · exact h b e
      intro b hb c hc
      rw [h' b hb, h' c hc]
    · intro h b hb
      exact h b (List.mem_cons_of_mem _ hb) a (by simp)

theorem networkInit_ok_iff (reg : A → Int) (l : List A) (x : Args A Sig) :
    (networkInit reg l x).2 = .ok l ↔ (x.multigraph = false ∧ x.directed = false ∧ x.connected = true) ∧
      (∀ a ∈ l, ∀ b ∈ l, x.sig a = x.sig b) ∧ Covers l x.noise ∧ Covers l x.compression ∧ Covers l x.drop := by
  rw [← compatible_iff, ← schemesOk_iff, ← schemesOk_iff, ← schemesOk_iff]
  unfold networkInit
  cases x.multigraph <;> cases x.directed <;> cases x.connected <;> cases compatible x.sig l <;>
    cases schemesOk l x.noise <;> cases schemesOk l x.compression <;> cases schemesOk l x.drop <;> simp

/-- **C10.** Exactly which peer-to-peer constructions succeed: one agent per graph node, distinct agents that belong to no
network yet, a simple undirected connected graph, costs of one common shape, framework and device, and scheme arguments that
cover every agent. -/
theorem C10_p2p_accepts (reg : A → Int) (k : Nat) (agents : List A) (x : Args A Sig) :
    (p2p reg k agents x).2 = .ok agents ↔ agents.length = k ∧ agents.Nodup ∧ (∀ a ∈ agents, reg a = -1) ∧
      (x.multigraph = false ∧ x.directed = false ∧ x.connected = true) ∧
      (∀ a ∈ agents, ∀ b ∈ agents, x.sig a = x.sig b) ∧
      Covers agents x.noise ∧ Covers agents x.compression ∧ Covers agents x.drop := by
  by_cases hk : agents.length = k
  · by_cases hv : validIds reg agents = true
    · have hv' : agents.Nodup ∧ ∀ a ∈ agents, reg a = -1 := by simpa [validIds] using hv
      have e : p2p reg k agents x = networkInit reg agents x := by simp [p2p, hk, hv]
      rw [e, networkInit_ok_iff]
      exact ⟨fun h => ⟨hk, hv'.1, hv'.2, h⟩, fun h => h.2.2.2⟩
    · have e : (p2p reg k agents x).2 = .error .valueError := by simp [p2p, hk, hv]
      rw [e]
      constructor
      · intro h; cases h
      · intro h; exact absurd (by simpa [validIds] using And.intro h.2.1 h.2.2.1) hv
  · have e : (p2p reg k agents x).2 = .error .valueError := by simp [p2p, hk]
    rw [e]
    constructor
    · intro h; cases h
    · intro h; exact absurd h.1 hk

theorem covers_withServer (server : A) (l : List A) (hs : server ∉ l) (s : SchemeArg A) :
    Covers (server :: l) (withServer server s) ↔ Covers l s := by
  cases s with
  | none => simp [Covers, withServer]
  | single => simp [Covers, withServer]
  | other => simp [Covers, withServer]
  | dict keys =>
    by_cases h : server ∈ keys
    · simp [Covers, withServer, h]
    · simp only [Covers, withServer, h, if_false]
      constructor
      · intro hc a ha
        have := hc a (List.mem_cons_of_mem _ ha)
        rcases List.mem_append.1 this with e | e
        · exact e
        · simp only [List.mem_singleton] at e
          exact absurd (e ▸ ha) hs
      · intro hc a ha
        rcases List.mem_cons.1 ha with e | e
        · simp [e]
        · simp [hc a e]

/-- **C10.** Exactly which federated constructions succeed. Scheme dictionaries need entries for the clients only: the
server's entry is added when it is missing. -/
theorem C10_fed_accepts (reg : A → Int) (clients : List A) (server : A) (always : Bool) (x : Args A Sig) :
    (fed reg clients server always x).2 = .ok (server :: clients) ↔
      clients ≠ [] ∧ always = true ∧ (server :: clients).Nodup ∧ (∀ a ∈ server :: clients, reg a = -1) ∧
      (∀ a ∈ server :: clients, ∀ b ∈ server :: clients, x.sig a = x.sig b) ∧
      Covers clients x.noise ∧ Covers clients x.compression ∧ Covers clients x.drop := by
  by_cases hc : clients = []
  · subst hc; simp [fed]
  · have hl : clients.length ≠ 0 := by simpa using hc
    by_cases ha : always = true
    · by_cases hv : validIds reg (server :: clients) = true
      · have hv' : (server :: clients).Nodup ∧ ∀ a ∈ server :: clients, reg a = -1 := by
          unfold validIds at hv
          rw [Bool.and_eq_true, decide_eq_true_eq, List.all_eq_true] at hv
          exact ⟨hv.1, fun a h => of_decide_eq_true (hv.2 a h)⟩
        have hs : server ∉ clients := (List.nodup_cons.1 hv'.1).1
        unfold fed
        rw [if_neg hl]
        simp only [ha, hv, Bool.not_true, Bool.false_eq_true, if_false]
        rw [networkInit_ok_iff]
        simp only [covers_withServer server clients hs, true_and]
        constructor
        · intro h; exact ⟨hc, hv'.1, hv'.2, h⟩
        · intro h; exact h.2.2.2
      · have e : (fed reg clients server always x).2 = .error .valueError := by simp [fed, hl, ha, hv]
        rw [e]
        constructor
        · intro h; cases h
        · intro h
          refine absurd ?_ hv
          unfold validIds
          rw [Bool.and_eq_true, decide_eq_true_eq, List.all_eq_true]
          exact ⟨h.2.2.1, fun a ha => decide_eq_true (h.2.2.2.1 a ha)⟩
    · have e : (fed reg clients server always x).2 = .error .valueError := by simp [fed, hl, ha]
      rw [e]
      constructor
      · intro h; cases h
      · intro h; exact absurd h.2.1 ha

-- client-only dictionaries are accepted by the federated constructor, incompatible costs by neither
example : (fed (fun _ => -1) [1, 2] 0 true (plain (.dict [1, 2]))).2 = .ok [0, 1, 2] := by rfl
example : (p2p (fun _ => -1) 2 [1, 2] { plain .none with sig := fun a => a }).2 = .error .valueError := by rfl

end Verif.Props
