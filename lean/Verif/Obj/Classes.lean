/-
The classes derived from `named`: their slots, properties and other class attributes.

The tables are transcribed from the class bodies under `/repo/src/quanguru/classes`.  They list, for each
class, the entries of its own `__slots__`, the properties it defines (with `true` if there is a setter), and
the remaining names bound in its body or assigned to it right after it (methods, class attributes).

Simplifications: names inherited from `object` (`__class__`, `__doc__`, …) are left out, and so are the
functions that `extensions/couplings.py` attaches to `compQSystem` and `QuantumSystem`; both kinds are class
attributes of the object and of its simulation or methods that nobody assigns to.
-/

namespace Verif.Obj

/-- One class body. -/
structure ClassDef where
  name : String
  base : String
  slots : List String
  props : List (String × Bool)
  attrs : List String

/-- `class xGate` (`QGates.py:86-122`). -/
def cXGate : ClassDef where
  name := "xGate"
  base := "SpinRotation"
  slots := []
  props := []
  attrs := ["label", "_internalInstances", "_externalInstances", "_instances", "__init__",
    "instantFlip", "_gateImplements", "_createUnitary"]

/-- `class QubitOld` (`QSys.py:1083-1102`). -/
def cQubitOld : ClassDef where
  name := "QubitOld"
  base := "SpinOld"
  slots := []
  props := []
  attrs := ["label", "_internalInstances", "_externalInstances", "_instances", "__init__"]

/-- `class SpinRotation` (`QGates.py:30-84`). -/
def cSpinRotation : ClassDef where
  name := "SpinRotation"
  base := "Gate"
  slots := ["__angle", "__rotationAxis", "phase", "_rotationOp"]
  props := [("angle", true), ("rotationAxis", true)]
  attrs := ["label", "_internalInstances", "_externalInstances", "_instances", "__init__",
    "_rotMat", "_createUnitary"]

/-- `class SpinOld` (`QSys.py:1048-1081`). -/
def cSpinOld : ClassDef where
  name := "SpinOld"
  base := "qSystem"
  slots := ["__jValue"]
  props := [("jValue", true)]
  attrs := ["label", "_internalInstances", "_externalInstances", "_instances", "__init__"]

/-- `class CavityOld` (`QSys.py:1104-1123`). -/
def cCavityOld : ClassDef where
  name := "CavityOld"
  base := "qSystem"
  slots := []
  props := []
  attrs := ["label", "_internalInstances", "_externalInstances", "_instances", "__init__"]

/-- `class Qubit` (`QSystem.py:816-836`). -/
def cQubit : ClassDef where
  name := "Qubit"
  base := "Spin"
  slots := []
  props := []
  attrs := ["label", "_internalInstances", "_externalInstances", "_instances", "__init__"]

/-- `class qProtocol` (`QPro.py:264-336`). -/
def cQProtocol : ClassDef where
  name := "qProtocol"
  base := "genericProtocol"
  slots := []
  props := [("_paramUpdated", true), ("steps", true)]
  attrs := ["label", "_internalInstances", "_externalInstances", "_instances", "__init__",
    "_paramUpdatedToFalse", "addSubSys", "addStep", "_puValues", "_defCreateUnitary",
    "_createUnitary"]

/-- `class freeEvolution` (`QPro.py:384-407`). -/
def cFreeEvolution : ClassDef where
  name := "freeEvolution"
  base := "genericProtocol"
  slots := []
  props := []
  attrs := ["label", "_internalInstances", "_externalInstances", "_instances", "__init__",
    "_freqCoef", "matrixExponentiation", "_createUnitary"]

/-- `class Gate` (`QPro.py:411-454`). -/
def cGate : ClassDef where
  name := "Gate"
  base := "genericProtocol"
  slots := ["__implementation"]
  props := [("system", true), ("implementation", true)]
  attrs := ["label", "_internalInstances", "_externalInstances", "_instances", "__init__",
    "addSubSys", "addSys"]

/-- `class Simulation` (`QSim.py:36-359`). -/
def cSimulation : ClassDef where
  name := "Simulation"
  base := "timeBase"
  slots := ["Sweep", "timeDependency", "evolFunc", "__index"]
  props := [("_currentTime", false), ("timeList", false), ("protocols", false), ("qSystems",
    false), ("qEvolutions", false)]
  attrs := ["label", "_internalInstances", "_externalInstances", "_instances", "_evolFuncDefault",
    "__init__", "_freeEvol", "addQSystems", "createQSystems", "removeQSystems", "removeSweep",
    "removeProtocol", "addProtocol", "addSubSys", "createSubSys", "_removeSubSysExc", "__compute",
    "run"]

/-- `class QuantumSystemOld` (`QSys.py:342-371`). -/
def cQuantumSystemOld : ClassDef where
  name := "QuantumSystemOld"
  base := "genericQSys"
  slots := []
  props := []
  attrs := ["_internalInstances", "_externalInstances", "_instances", "__new__"]

/-- `class compQSystem` (`QSys.py:373-643`). -/
def cCompQSystem : ClassDef where
  name := "compQSystem"
  base := "genericQSys"
  slots := ["__qCouplings", "__qSystems"]
  props := [("subSysDimensions", false), ("freeHam", false), ("totalHam", false), ("couplingHam",
    false), ("qSystems", false), ("qCouplings", false)]
  attrs := ["label", "_internalInstances", "_externalInstances", "_instances", "__init__",
    "_timeDependency", "addSubSys", "createSubSys", "__addSub", "_removeSubSysExc",
    "__addCoupling", "createSysCoupling", "addSysCoupling", "_createAstate", "_constructMatrices",
    "updateDimension"]

/-- `class qSystem` (`QSys.py:832-1046`). -/
def cQSystem : ClassDef where
  name := "qSystem"
  base := "genericQSys"
  slots := []
  props := [("dimension", true), ("totalHam", false), ("_totalHamSimple", false), ("freeMat",
    true), ("operator", true), ("frequency", true), ("order", true), ("firstTerm", false),
    ("terms", true)]
  attrs := ["label", "_internalInstances", "_externalInstances", "_instances", "__init__",
    "addSubSys", "_removeSubSysExc", "addTerm", "removeTerm", "_createAstate"]

/-- `class Cavity` (`QSystem.py:760-779`). -/
def cCavity : ClassDef where
  name := "Cavity"
  base := "QuantumSystem"
  slots := []
  props := []
  attrs := ["label", "_internalInstances", "_externalInstances", "_instances", "__init__"]

/-- `class Spin` (`QSystem.py:781-814`). -/
def cSpin : ClassDef where
  name := "Spin"
  base := "QuantumSystem"
  slots := ["__jValue"]
  props := [("jValue", true)]
  attrs := ["label", "_internalInstances", "_externalInstances", "_instances", "__init__"]

/-- `class genericProtocol` (`QPro.py:40-262`). -/
def cGenericProtocol : ClassDef where
  name := "genericProtocol"
  base := "QSimComp"
  slots := ["__currentState", "__inProtocol", "__fixed", "__ratio", "__updates", "__dissipator",
    "_openSys", "_getUnitary", "timeDependency", "__identity", "sampleStates", "stepSample"]
  props := [("hc", false), ("dimension", false), ("_dissipator", false), ("_isOpen", false),
    ("currentState", true), ("initialState", true), ("updates", false), ("ratio", true),
    ("system", true), ("fixed", true), ("superSys", true)]
  attrs := ["label", "_internalInstances", "_externalInstances", "_instances",
    "numberOfExponentiations", "_increaseExponentiationCount", "__init__", "createUpdate",
    "addUpdate", "prepare", "unitary", "getUnitary", "_paramUpdatedToFalse", "_defGetUnitary",
    "_identity"]

/-- `class timeBase` (`QSimBase.py:291-505`). -/
def cTimeBase : ClassDef where
  name := "timeBase"
  base := "stateBase"
  slots := ["__totalTime", "__stepSize", "__samples", "__stepCount", "__bound"]
  props := [("totalTime", true), ("stepCount", true), ("stepSize", true), ("samples", true)]
  attrs := ["label", "_internalInstances", "_externalInstances", "_instances", "__init__",
    "_copyVals", "_boundTree", "_bound", "delMatrices"]

/-- `class genericQSys` (`QSys.py:98-340`). -/
def cGenericQSys : ClassDef where
  name := "genericQSys"
  base := "QSimComp"
  slots := ["__unitary", "__dimension", "__dimsBefore", "__dimsAfter", "_inpCoef"]
  props := [("ind", false), ("_dimsBefore", true), ("_dimsAfter", true), ("dimension", false),
    ("_totalDim", false), ("_freeEvol", false), ("initialState", true)]
  attrs := ["label", "_internalInstances", "_externalInstances", "_instances", "__init__",
    "__add__", "_hasInSubs", "__sub__", "__rmul__", "copy", "unitary", "_constructMatrices",
    "addProtocol", "_timeDependency"]

/-- `class QuantumSystem` (`QSystem.py:59-757`). -/
def cQuantumSystem : ClassDef where
  name := "QuantumSystem"
  base := "QSimComp"
  slots := ["__terms", "__dimension", "__firstTerm", "__compSys", "__dimsBefore", "__dimsAfter",
    "_inpCoef", "__unitary", "__compOpers"]
  props := [("_compositeOperator", true), ("initialState", true), ("_subSysHamiltonian", false),
    ("totalHamiltonian", false), ("_termHamiltonian", false), ("_totalDim", false), ("dimension",
    true), ("subSysDimensions", false), ("_dimsBefore", true), ("_dimsAfter", true),
    ("_isComposite", false), ("ind", false), ("_freeEvol", false), ("terms", true), ("_firstTerm",
    false), ("frequency", true), ("operator", true), ("order", true), ("_freeMatrix", true)]
  attrs := ["label", "_internalInstances", "_externalInstances", "_instances", "__init__",
    "_constructMatrices", "_timeDependency", "_createInitialState", "_createState",
    "_hasConsistentDimensionTerm", "_updateDimension", "__dimsABUpdate", "_hasInSubs", "__addSub",
    "addSubSys", "delMatrices", "__add__", "__sub__", "_removeSubSysExc", "unitary",
    "addProtocol", "createTerm", "addTerms", "_removeTermExc", "removeTerm", "resetTerms", "copy",
    "__rmul__"]

/-- `class qDrive` (`QDrive.py:43-78`). -/
def cQDrive : ClassDef where
  name := "qDrive"
  base := "genericDrive"
  slots := []
  props := [("pulses", true)]
  attrs := ["label", "_internalInstances", "_externalInstances", "_instances", "__init__",
    "addPulse", "apply"]

/-- `class pulse` (`QDrive.py:80-130`). -/
def cPulse : ClassDef where
  name := "pulse"
  base := "genericDrive"
  slots := ["__t0", "__t1", "__func", "funcArgs", "funcKwargs", "_scale"]
  props := [("t0", true), ("t1", true), ("func", true)]
  attrs := ["label", "_internalInstances", "_externalInstances", "_instances", "__init__",
    "apply", "integrateShape"]

/-- `class stateBase` (`QSimBase.py:132-289`). -/
def cStateBase : ClassDef where
  name := "stateBase"
  base := "computeBase"
  slots := ["__delStates", "__initialState", "__initialStateInput", "_initialStateSystem",
    "_maxInput"]
  props := [("initialStateSystem", true), ("initialState", true), ("_initialStateInput", true),
    ("delStates", true)]
  attrs := ["label", "_internalInstances", "_externalInstances", "_instances", "__init__",
    "_setGetMaxInput", "getResultByNameOrAlias", "delMatrices"]

/-- `class QSimComp` (`QSimComp.py:26-173`). -/
def cQSimComp : ClassDef where
  name := "QSimComp"
  base := "computeBase"
  slots := ["__simulation"]
  props := [("simulation", false), ("_initialStateInput", false), ("simParameters", false),
    ("simTotalTime", true), ("simStepSize", true), ("simStepCount", true), ("simSamples", true),
    ("simCompute", true), ("simDelStates", true), ("initialState", false)]
  attrs := ["label", "_internalInstances", "_externalInstances", "_instances", "__init__",
    "__getattribute__", "__setattr__", "runSimulation", "delMatrices"]

/-- `class term` (`QSys.py:768-830`). -/
def cTerm : ClassDef where
  name := "term"
  base := "termTimeDep"
  slots := []
  props := [("superSys", true), ("_freeMatSimple", false)]
  attrs := ["label", "_internalInstances", "_externalInstances", "_instances",
    "_constructMatrices"]

/-- `class qCoupling` (`QSys.py:1125-1271`). -/
def cQCoupling : ClassDef where
  name := "qCoupling"
  base := "termTimeDep"
  slots := []
  props := [("couplingOperators", false), ("coupledSystems", false), ("couplingStrength", true)]
  attrs := ["label", "_internalInstances", "_externalInstances", "_instances", "__init__",
    "__coupOrdering", "_constructMatrices", "__addTerm", "addTerm", "removeSysCoupling",
    "_removeSubSysExc"]

/-- `class dissipatorObj` (`environment.py:50-115`). -/
def cDissipatorObj : ClassDef where
  name := "dissipatorObj"
  base := "_genericOpen"
  slots := ["type", "__operator", "__rate", "__bath"]
  props := [("temperature", true), ("superSys", true), ("jRate", true), ("jOperMatrix", true),
    ("jOper", true)]
  attrs := ["label", "_internalInstances", "_externalInstances", "_instances", "__init__",
    "addToProtocol"]

/-- `class thermalBath` (`environment.py:117-201`). -/
def cThermalBath : ClassDef where
  name := "thermalBath"
  base := "_genericOpen"
  slots := ["__temperature", "__charFreq", "__nbar"]
  props := [("jOpers", true), ("subSys", true), ("dissipator", true), ("temperature", true),
    ("charFreq", true), ("nBar", false)]
  attrs := ["label", "_internalInstances", "_externalInstances", "_instances", "__init__"]

/-- `class genericDrive` (`QDrive.py:19-41`). -/
def cGenericDrive : ClassDef where
  name := "genericDrive"
  base := "paramBoundBase"
  slots := []
  props := []
  attrs := ["label", "_internalInstances", "_externalInstances", "_instances", "__init__",
    "totalShape", "apply"]

/-- `class Update` (`QPro.py:456-508`). -/
def cUpdate : ClassDef where
  name := "Update"
  base := "updateBase"
  slots := ["value", "__memoryValue", "setup", "setback"]
  props := [("memoryValue", true), ("updateFunction", true)]
  attrs := ["label", "_internalInstances", "_externalInstances", "_instances", "__init__",
    "_setup", "_setback"]

/-- `class qResults` (`QRes.py:185-344`). -/
def cQResults : ClassDef where
  name := "qResults"
  base := "qResBase"
  slots := ["allResults"]
  props := []
  attrs := ["label", "_internalInstances", "_externalInstances", "_instances", "_allResults",
    "__init__", "_copyAllResBlank", "_reset", "_resetLast", "_organiseMultiProcRes",
    "_finaliseAll", "_organise", "_organiseSingleProcRes", "_finalise", "_reShape"]

/-- `class _sweep` (`QSweep.py:37-174`). -/
def c_sweep : ClassDef where
  name := "_sweep"
  base := "updateBase"
  slots := ["sweepMax", "sweepMin", "sweepStep", "_sweepList", "logSweep", "combinatorial",
    "_sweepIndex"]
  props := [("index", false), ("sweepFunction", true), ("sweepKey", true), ("sweepList", true)]
  attrs := ["label", "_internalInstances", "_externalInstances", "_instances", "__init__",
    "_defSweep", "runSweep"]

/-- `class termTimeDep` (`QSys.py:645-766`). -/
def cTermTimeDep : ClassDef where
  name := "termTimeDep"
  base := "paramBoundBase"
  slots := ["timeDependency", "__frequency", "__order", "__operator"]
  props := [("operator", true), ("order", true), ("frequency", true), ("totalHam", false),
    ("freeMat", true)]
  attrs := ["label", "_internalInstances", "_externalInstances", "_instances", "__init__", "copy",
    "_constructMatrices", "_timeDependency"]

/-- `class QTerm` (`QTerms.py:28-318`). -/
def cQTerm : ClassDef where
  name := "QTerm"
  base := "paramBoundBase"
  slots := ["timeDependency", "__frequency", "__order", "__operator", "__HamiltonianTerm",
    "__qSys"]
  props := [("superSys", true), ("qSystem", true), ("operator", true), ("order", true),
    ("frequency", true), ("totalHamiltonian", false), ("_freeMatrix", true)]
  attrs := ["label", "_internalInstances", "_externalInstances", "_instances", "__init__",
    "_timeDependency", "_removeTermIfQSysInList", "_createTerm",
    "_checkAndUpdateParamsWhenMultiple", "_isOperPauli", "_isCorrectPauliDim", "_dimInput",
    "_constructMatrices"]

/-- `class computeBase` (`baseClasses.py:238-327`). -/
def cComputeBase : ClassDef where
  name := "computeBase"
  base := "paramBoundBase"
  slots := ["qRes", "compute", "preCompute", "postCompute"]
  props := [("alias", true), ("resultsDict", false), ("states", false)]
  attrs := ["label", "_internalInstances", "_externalInstances", "_instances", "__init__",
    "__compute", "__calculate"]

/-- `class _genericOpen` (`environment.py:19-48`). -/
def c_genericOpen : ClassDef where
  name := "_genericOpen"
  base := "paramBoundBase"
  slots := []
  props := [("system", true), ("superSys", true)]
  attrs := ["label", "_internalInstances", "_externalInstances", "_instances"]

/-- `class copyStep` (`QPro.py:340-382`). -/
def cCopyStep : ClassDef where
  name := "copyStep"
  base := "qBase"
  slots := ["hc"]
  props := [("simulation", false), ("_paramUpdated", true), ("_isOpen", false)]
  attrs := ["label", "_internalInstances", "_externalInstances", "_instances", "__init__",
    "_paramUpdatedToFalse", "getUnitary", "unitary"]

/-- `class qResBase` (`QRes.py:78-183`). -/
def cQResBase : ClassDef where
  name := "qResBase"
  base := "qBase"
  slots := ["__results", "__states", "__resultsLast", "__statesLast", "__average", "__calculated"]
  props := [("calculated", true), ("resultsDict", false), ("singleResult", true), ("resAverage",
    true), ("states", false)]
  attrs := ["label", "_internalInstances", "_externalInstances", "_instances", "__init__",
    "resultsMethod"]

/-- `class Sweep` (`QSweep.py:176-358`). -/
def cSweep : ClassDef where
  name := "Sweep"
  base := "qBase"
  slots := ["__inds", "__indMultip"]
  props := [("inds", false), ("indMultip", false), ("sweeps", true)]
  attrs := ["label", "_internalInstances", "_externalInstances", "_instances", "__init__",
    "removeSweep", "createSweep", "prepare", "runSweep", "_indicesForSweep"]

/-- `class updateBase` (`baseClasses.py:34-102`). -/
def cUpdateBase : ClassDef where
  name := "updateBase"
  base := "qBase"
  slots := ["__key", "__function", "_aux"]
  props := [("key", true), ("system", true)]
  attrs := ["label", "_internalInstances", "_externalInstances", "_instances", "__init__",
    "_runUpdate"]

/-- `class paramBoundBase` (`baseClasses.py:104-236`). -/
def cParamBoundBase : ClassDef where
  name := "paramBoundBase"
  base := "qBase"
  slots := ["__paramUpdated", "__paramBound", "__matrix", "__matrixHc"]
  props := [("_hc", false), ("_paramBound", false), ("_paramUpdated", true)]
  attrs := ["label", "_internalInstances", "_externalInstances", "_instances", "__init__",
    "_createParamBound", "_breakParamBound", "delMatrices"]

/-- `class qBase` (`base.py:578-707`). -/
def cQBase : ClassDef where
  name := "qBase"
  base := "named"
  slots := ["__superSys", "__subSys", "__auxDict", "__auxObj"]
  props := [("auxDict", true), ("auxObj", false), ("superSys", true), ("subSys", true)]
  attrs := ["label", "_internalInstances", "_externalInstances", "_instances", "_auxiliaryDict",
    "_auxiliaryObj", "__init__", "addSubSys", "createSubSys", "_removeSubSysExc", "removeSubSys",
    "resetSubSys", "copy"]

/-- `class named` (`base.py:304-505`). -/
def cNamed : ClassDef where
  name := "named"
  base := ""
  slots := ["__name", "_internal", "__weakref__", "_allInstaces"]
  props := [("name", false), ("alias", true)]
  attrs := ["label", "_internalInstances", "_externalInstances", "_instances",
    "_totalNumberOfInst", "_allInstacesDict", "_findInSlots", "__getstate__", "__setstate__",
    "__init__", "__str__", "getByNameOrAlias", "_incrementInstances", "__namer", "clsLabel",
    "clsInstances", "_resetAllSubProc", "_resetAll", "__setKwargs"]

/-- All classes derived from `named`, every class before the class it is derived from. -/
def classes : List ClassDef :=
  [cXGate, cQubitOld, cSpinRotation, cSpinOld, cCavityOld, cQubit, cQProtocol, cFreeEvolution,
    cGate, cSimulation, cQuantumSystemOld, cCompQSystem, cQSystem, cCavity, cSpin,
    cGenericProtocol, cTimeBase, cGenericQSys, cQuantumSystem, cQDrive, cPulse, cStateBase,
    cQSimComp, cTerm, cQCoupling, cDissipatorObj, cThermalBath, cGenericDrive, cUpdate, cQResults,
    c_sweep, cTermTimeDep, cQTerm, cComputeBase, c_genericOpen, cCopyStep, cQResBase, cSweep,
    cUpdateBase, cParamBoundBase, cQBase, cNamed]

/-- Name mangling: inside a class body, `__x` stands for `_Class__x`; leading underscores of the class name are
dropped (rule of the Python language, relied on in all files). -/
def mangle (c k : String) : String :=
  if k.startsWith "__" && !k.endsWith "__" then
    "_" ++ String.ofList (c.toList.dropWhile (· == '_')) ++ k
  else k

/-- The method resolution order: all classes have one base, so it is the chain of bases. -/
def mro : List ClassDef → String → List ClassDef
  | [], _ => []
  | d :: ds, c => if d.name = c then d :: mro ds d.base else mro ds c

/-- What a name is in a class body. -/
inductive Kind
  | slot
  | rw
  | ro
  | cls
  deriving DecidableEq, Repr

/-- The entry that a class body has for an attribute name. -/
def entry (k : String) (d : ClassDef) : Option (String × Kind) :=
  if (d.slots.map (mangle d.name)).contains k then some (d.name, .slot)
  else match d.props.find? (fun p => mangle d.name p.1 = k) with
    | some p => some (d.name, if p.2 then .rw else .ro)
    | none => if (d.attrs.map (mangle d.name)).contains k then some (d.name, .cls) else none

/-- Attribute lookup on the class: the first class in the resolution order with an entry, and the entry. -/
def lookup (c k : String) : Option (String × Kind) := (mro classes c).findSome? (entry k)

end Verif.Obj
