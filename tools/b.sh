#!/bin/bash
# build helper: prints only diagnostics; exit status of the build
cd ${1:-/verif/lean}; lake build ${2:-} > /tmp/b.out 2>&1; rc=$?; grep -v '^✔\|^trace:\|^Note: This linter\|^ℹ' /tmp/b.out | head -c ${BMAX:-5000}; exit $rc
