#!/bin/sh
# Regenerate lean/Verif.lean: import every module under lean/Verif.
cd /verif/lean && find Verif -name '*.lean' | sort | sed 's/\.lean$//; s#/#.#g; s/^/import /' > Verif.lean
