# Which functions are modelled

Generated by `tools/coverage.py` from the citations in the model. "Part" means that only some
of the lines of the function are cited. The rest is not modelled.

## bin/fble-compile.c
* Modelled in `Whole`: main

## bin/fble-deps.c
* Modelled in `Whole`: main

## bin/fble-disassemble.c
* Modelled in `Whole`: main

## bin/fble-perf-profile.c
* Modelled in `Support`: GetLine
* Modelled in `Profile`: GetBlockId, Sample, main

## fbld/alloc.c
* Not modelled: Exit, FbldAllocRaw, FbldReAllocRaw, FbldFree

## fbld/eval.c
* Modelled in `Fbld`: HeadOf, TailOf, Eq, MapPlain, Eval, FbldEval
* Not modelled: CopyEnv, FreeEnv, PushEval

## fbld/fbld.c
* Modelled in `FbldParse`: main

## fbld/markup.c
* Modelled in `Fbld`: FbldNewText, FbldMarkupLoc, TextOfMarkup, FbldTextOfMarkup, FbldPrintMarkup
* Not modelled: FbldReportError, FbldNewPlainMarkup, FbldFreeMarkup, FbldCopyMarkup, FbldDebugMarkup

## fbld/parse.c
* Modelled in `FbldParse`: GetC, NextFetched, Char, Is, IsEnd, Advance, IsNameChar, ParseName, ParseInlineArgs, ParseInlineCommand, ParseInline, ParseBlockCommand, ParseBlock, FbldParse

## fbld/vector.c
* Modelled in `Support`: FbldExtendVectorRaw

## lib/aarch64.c
* Modelled in `Backend`: AddLoc, CollectBlocksAndLocs, GetFrameVar, SetFrameVar, DoAbort, StackBytesForCount, Adr, EmitSearch, EmitInstr, EmitOutlineCode, EmitCode, FbleGenerateAArch64
* Modelled in `Gen`: StringLit, StaticNames, StaticModulePath, StaticGeneratedModule, SizeofSanitizedString, SanitizeString, LabelForPath
* Modelled in `Select`: GetSingleTarget
* Part in `Gen`: StaticString
* Not modelled: FbleGenerateAArch64Export, FbleGenerateAArch64Main

## lib/alloc.c
* Modelled in `Support`: Exit, FbleAllocRaw, FbleReAllocRaw, FbleFree
* Not modelled: FbleMaxTotalBytesAllocated, FbleResetMaxTotalBytesAllocated

## lib/arg-parse.c
* Modelled in `Args`: FbleParseBoolArg, FbleParseStringArg, FbleParseModuleArg
* Part in `Args`: FbleParseInvalidArg
* Not modelled: FbleNewModuleArg, FbleFreeModuleArg

## lib/c.c
* Modelled in `Backend`: CollectBlocks, EmitCode, FbleGenerateC
* Modelled in `Gen`: StringLit, StaticString, StaticNames, StaticModulePath, StaticGeneratedModule, SizeofSanitizedString, SanitizeString, LabelForPath
* Not modelled: ReturnAbort, FbleGenerateCExport, FbleGenerateCMain

## lib/code.c
* Modelled in `Backend`: PrintLoc, FbleDisassemble
* Not modelled: FbleRawAllocInstr, FbleFreeDebugInfo, FbleFreeInstr, FbleNewCode, FbleFreeCode

## lib/compile.c
* Modelled in `Compile`: NewLocal, ReleaseLocal, PushVar, PopVar, GetVar, SetVar, RewriteVar, RewriteVars, InitScope, AppendInstr, AppendProfileOp, PushBodyBlock, EnterBlock, PopBlock, ExitBlock, CompileExit, CompileExpr, Compile
* Modelled in `Backend`: PushBlock
* Modelled in `Whole`: FbleCompileModule
* Part in `Gen`: CompileModule
* Not modelled: FreeLocal, FreeScope, AppendDebugInfo, FbleFreeCompiledModule, FbleFreeCompiledProgram, FbleCompileProgram

## lib/expr.c
* Not modelled: FbleFreeExpr

## lib/interpret.c
* Modelled in `Backend`: Interpret, FbleNewInterpretedFuncValue
* Not modelled: FreeCode

## lib/kind.c
* Not modelled: FbleNewBasicKind, FbleCopyKind, FbleFreeKind

## lib/link.c
* Modelled in `Compile`: LinkInterpreted
* Modelled in `Load`: LoadGenerated, LinkGenerated
* Modelled in `Backend`: FbleLink
* Modelled in `Whole`: FblePrintCompiledHeaderLine

## lib/load.c
* Modelled in `Text`: FindPackageAt, FbleFindPackage, FindAt, FbleSaveBuildDeps
* Modelled in `Load`: Find, FbleLoad
* Not modelled: FbleNewSearchPath, FbleFreeSearchPath, FbleAppendToSearchPath, FbleAppendStringToSearchPath, FbleFreeLoadedProgram

## lib/loc.c
* Not modelled: FbleNewLoc, FbleCopyLoc, FbleFreeLoc, FbleReportWarning, FbleReportError

## lib/module-path.c
* Modelled in `Text`: FblePrintModulePath
* Modelled in `Elab`: FbleModulePathsEqual, FbleModuleBelongsToPackage
* Part in `Text`: FbleModulePathName
* Not modelled: FbleNewModulePath, FbleCopyModulePath, FbleFreeModulePath

## lib/name.c
* Modelled in `Text`: FbleNamesEqual, FblePrintName
* Not modelled: FbleCopyName, FbleFreeName

## lib/parse.y
* Modelled in `Text`: ToString, IsSpaceChar, IsPunctuationChar, IsWordChar, ReadNextChar, yylex, yyerror, FbleIsPlainWord, FbleParseModulePath
* Modelled in `Parse`: FbleParse

## lib/profile.c
* Modelled in `Profile`: CallStackPush, CallStackPop, GetCallData, MergeSortCallData, SortCallData, PrintBlockName, PrintCallData, EnterBlock, FbleNewProfile, FbleAddBlockToProfile, FbleAddBlocksToProfile, FbleNewProfileThread, FbleProfileSample, FbleProfileExitBlock, FbleGenerateProfileReport
* Part in `Profile`: FbleFreeProfileThread
* Not modelled: FbleFreeProfile, FbleProfileRandomSample, FbleProfileEnterBlock, FbleProfileReplaceBlock

## lib/string.c
* Not modelled: FbleNewString, FbleCopyString, FbleFreeString

## lib/tc.c
* Not modelled: FreeTcBinding, FbleNewTcRaw, FbleCopyTc, FbleFreeTc

## lib/type-heap.c
* Modelled in `TypeHeap`: MoveToFront, MoveToBack, NewGen, IncrGc, FbleNewTypeHeap, FbleFreeTypeHeap, FbleAllocType, FbleRetainType, FbleReleaseType, FbleTypeAddRef, FullGc
* Not modelled: MoveAllToFront, GenIsEmpty

## lib/type.c
* Modelled in `Types`: LevelAdjustedKind, Normal, HasParam, HasParam_, Subst, TypesEqual, FbleGetKind, FbleGetKindLevel, FbleKindsEqual, FbleNewVarType, FbleAssignVarType, FbleNewPolyType, FbleNewPolyApplyType, FbleTypeIsVacuous, FbleValueOfType, FbleListElementType, FbleTypesEqual, FbleTypeInfer
* Modelled in `TypeHeap`: FbleTypeRefs, FbleTypeOnFree
* Modelled in `Parse`: FblePrintKind, FblePrintType
* Modelled in `Elab`: FbleNewTypeRaw
* Modelled in `NoCrash`: FbleNormalType
* Not modelled: Ref

## lib/typecheck.c
* Modelled in `Elab`: VarNamesEqual, PushLocalVar, PushLocalTypeVar, PopLocalVar, GetVar, InitScope, FreeScope, CheckNameSpace, DepolyType, PolyApply, TypeInferArgs, TypeCheckExpr, TypeCheckExprWithCleaner, TypeCheckExprForType, TypeCheckType, TypeCheckTypeWithCleaner, TypeCheckModule, FbleTypeCheckProgram
* Modelled in `Whole`: FbleTypeCheckModule
* Not modelled: ReportError, MkTc, FreeTc, CopyTcBinding, NewCleaner, CleanType, CleanTc, CleanTypeAssignmentV, CleanTcBinding, Cleanup

## lib/unused.c
* Modelled in `Unused`: Expr, FbleWarnAboutUnusedVars

## lib/value.c
* Modelled in `Gc`: Clear, IsEmpty, Get, MoveTo, NewGcValueRaw, FreeGcValue, GcRealloc, MarkRef, MarkRefs, IncrGc, FbleFreeValueHeap, PushFrame, FblePopFrame, CompactFrame, FbleNewNativeValue, FbleValueFullGc
* Modelled in `Support`: StackAlloc, FbleNewValueHeap
* Modelled in `Pack`: IsPacked, IsAlloced, PackedValueLength, FbleNewStructValue, FbleNewStructValue_, FbleNewUnionValue, FbleUnionValueArg, FbleNewListValue_
* Modelled in `Compile`: StrictValue, FbleStructValueField, FbleUnionValueTag, EnsureTailCallArgsSpace, PartialApplyImpl, PartialApply, Eval, FbleTailCall, FbleEval, FbleApply, FbleNewListValue, FbleNewLiteralValue, FbleNewRefValue, FbleAssignRefValue
* Modelled in `Host`: FbleNewEnumValue
* Modelled in `Backend`: FbleUnionValueField, TailCall, FbleCall
* Part in `Gc`: MoveAllTo, FbleNewFuncValue
* Not modelled: NewValueRaw, FblePushFrame, FbleFuncValueFunction, FbleNativeValueData

## lib/vector.c
* Modelled in `Support`: FbleExtendVectorRaw

## lib/version.c
* Not modelled: FblePrintVersion

## pkgs/app/app.c
* Modelled in `Host`: Draw, MakeKey, MakeButton, EventImpl
* Modelled in `Whole`: FbleAppMain
* Part in `Host`: EffectImpl
* Not modelled: OnTimer

## pkgs/app/fble-app.c
* Not modelled: main

## pkgs/core/char.fble.c
* Modelled in `Host`: FbleNewCharValue, FbleCharValueAccess

## pkgs/core/fble-stdio.c
* Not modelled: main

## pkgs/core/int.fble.c
* Modelled in `Host`: MakeIntP, ReadIntP, FbleNewIntValue, FbleIntValueAccess

## pkgs/core/stdio.fble.c
* Modelled in `Compile`: IStreamImpl, OStreamImpl, ReadImpl, WriteImpl
* Modelled in `Host`: IStream, OStream, FbleNewStdioIO
* Modelled in `Whole`: FbleStdioMain
* Part in `Compile`: GetEnvImpl
* Part in `Host`: FbleStdio
* Not modelled: OnFree, Read, Write, GetEnv

## pkgs/core/string.fble.c
* Modelled in `Host`: FbleStringValueAccess, FbleNewStringValue
* Not modelled: FbleDebugTrace
